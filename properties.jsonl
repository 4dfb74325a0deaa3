{"id": "C01", "title": "Equality is structural and is an equivalence", "statement": "operator== returns true exactly when both numbers have the same descriptor and the same digit sequence; operator!= is always its negation; == is reflexive, symmetric and transitive.", "quantifier": "all pairs/triples of bignum objects in any state (any descriptor, any digits, any length), every base", "why_tests_cant": "quantifies over all digit sequences of all lengths and over triples", "anchors": ["include/bignum/impl/bn_type_impl.h: operator==, operator!=", "include/bignum/impl/bn_compare_impl.h: abs_val_is_eq"]}
{"id": "C02", "title": "Equality of well-formed numbers is equality of sign and magnitude", "statement": "For numbers whose digits are in range and have no leading zeros, a == b holds exactly when the descriptors agree and the magnitudes agree as natural numbers, so two representations of the same signed magnitude never compare different.", "quantifier": "all well-formed operands, all bases >= 2, all lengths", "why_tests_cant": "uniqueness of positional representation is a statement about all pairs of numbers", "anchors": ["include/bignum/impl/bn_type_impl.h: operator==", "include/bignum/impl/bn_compare_impl.h: abs_val_is_eq"]}
{"id": "C03", "title": ">= and <= on non-negative numbers are the integer order", "statement": "For two well-formed non-negative numbers without leading zeros, a >= b iff value(a) >= value(b), and a <= b iff value(a) <= value(b).", "quantifier": "all pairs of well-formed non-negative numbers, every base and length", "why_tests_cant": "the answer depends on the most significant differing digit, at any of unboundedly many positions", "anchors": ["include/bignum/impl/bn_type_impl.h: operator>=, operator<=", "include/bignum/impl/bn_compare_impl.h: abs_val_is_ge, abs_val_is_le"]}
{"id": "C04", "title": "> and < on non-negative numbers are the strict integer order", "statement": "For two well-formed non-negative numbers, a > b iff value(a) > value(b), and a < b iff value(a) < value(b).", "quantifier": "all pairs of well-formed non-negative numbers, every base and length", "why_tests_cant": "a few sampled pairs of different length or single digits behave correctly; the claim is about every digit pattern", "anchors": ["include/bignum/impl/bn_type_impl.h: operator>, operator<", "include/bignum/impl/bn_compare_impl.h: abs_val_is_gt, abs_val_is_lt"]}
{"id": "C05", "title": "The exact meaning of > and < on non-negative numbers", "statement": "On non-negative numbers a > b is true exactly when a has more digits, or the lengths agree and SOME position of a holds a larger digit than b; hence a truly larger well-formed number is always reported as greater (no false negatives), and the answer is exact whenever the lengths differ.", "quantifier": "all pairs of digit sequences with sign BN_POS", "why_tests_cant": "quantifies over all digit sequences", "anchors": ["include/bignum/impl/bn_type_impl.h: operator>, operator<", "include/bignum/impl/bn_compare_impl.h: abs_val_is_gt, abs_val_is_lt"]}
{"id": "C06", "title": "Order laws of the comparison operators", "statement": "The operators form a consistent total order: not (a > a), not (a > b and b > a), a > b iff b < a, and exactly one of a < b, a == b, a > b holds.", "quantifier": "all pairs of well-formed signed numbers", "why_tests_cant": "laws over all pairs; sampling pairs cannot establish antisymmetry or trichotomy", "anchors": ["include/bignum/impl/bn_type_impl.h: operator>, operator>=, operator<, operator<="]}
{"id": "C07", "title": "Comparison of negative numbers is the integer order", "statement": "For two negative well-formed numbers, each of >, >=, <, <= agrees with the order of the (negative) integers they denote.", "quantifier": "all pairs of negative numbers, every base and length", "why_tests_cant": "must hold for all magnitudes, including equal ones and ties in any digit", "anchors": ["include/bignum/impl/bn_type_impl.h: operator>, operator>=, operator<, operator<="]}
{"id": "C08", "title": "Comparison of numbers of opposite sign depends only on the signs", "statement": "If a is positive and b is negative then a > b, a >= b are true and a < b, a <= b are false, whatever the digits are; and conversely.", "quantifier": "all digit sequences for both operands", "why_tests_cant": "the digit sequences are arbitrary and unbounded", "anchors": ["include/bignum/impl/bn_type_impl.h: operator>, operator>=, operator<, operator<="]}
{"id": "C09", "title": "Addition is exact integer addition", "statement": "For all well-formed numbers a, b with signs BN_POS/BN_NEG (excluding two empty zeros of opposite sign) in every supported digit type, a += b terminates and leaves a denoting exactly value(a)+value(b); no carry is ever lost, whatever the lengths.", "quantifier": "all bases/digit widths (uint8/16/32 native and custom-base digits), all sign combinations, all lengths; release builds, enough memory", "why_tests_cant": "the digit count is unbounded, so no finite set of operands covers every carry/borrow chain or every base", "anchors": ["include/bignum/impl/bn_type_impl.h: operator+=, operator+", "include/bignum/impl/bn_addition_impl.h: abs_val_add", "include/bignum/impl/bn_subtraction_impl.h: abs_val_sub"]}
{"id": "C10", "title": "Addition has undefined behaviour exactly for two empty zeros of opposite sign", "statement": "Among all operands with sign descriptors and in-range digits and no leading zeros, a += b reads outside the digit storage exactly when the descriptors differ and both digit sequences are empty; in every other case it has no out-of-bounds access.", "quantifier": "all operand pairs; both builds, all allocators", "why_tests_cant": "absence of out-of-bounds access must hold for every pair of lengths and borrow pattern", "anchors": ["include/bignum/impl/bn_type_impl.h: operator+=", "include/bignum/impl/bn_subtraction_impl.h: abs_val_sub"]}
{"id": "C11", "title": "Arithmetic results are well formed", "statement": "When a += b, a -= b (any signs), a *= b, or a /= b (b not the one-digit zero) returns on well-formed operands, every digit of the result is within [0, base) and there is no leading zero (except the one-digit zero), so results can be fed to further operations.", "quantifier": "all well-formed operands, every base", "why_tests_cant": "the digit count is unbounded, so no finite set of operands covers every carry/borrow chain or every base", "anchors": ["include/bignum/impl/bn_type_impl.h: operator+=, operator-=, operator/="]}
{"id": "C12", "title": "Addition is commutative and associative, operands are untouched", "statement": "a + b and b + a denote the same integer, (a + b) + c and a + (b + c) denote the same integer whenever the intermediate sums are defined, and operator+ equals copying then +=, leaving both operands as they were.", "quantifier": "all triples of well-formed signed numbers; release builds, enough memory", "why_tests_cant": "algebraic laws over all triples", "anchors": ["include/bignum/impl/bn_type_impl.h: operator+"]}
{"id": "C13", "title": "Self addition doubles (aliasing)", "statement": "a += a, where the argument is the object itself and grows while it is being read, terminates and leaves exactly 2*value(a) with the sign of a.", "quantifier": "all digit sequences in range, every base; enough memory", "why_tests_cant": "the aliased container grows during iteration; the claim is about all carry patterns", "anchors": ["include/bignum/impl/bn_type_impl.h: operator+=", "include/bignum/impl/bn_addition_impl.h: abs_val_add"]}
{"id": "C14", "title": "Accumulating a list of numbers gives the integer sum", "statement": "Starting from a well-formed number and applying += with any finite sequence of well-formed same-sign numbers gives the integer sum of all of them, at every prefix of the history.", "quantifier": "all finite histories of += operations; release builds, enough memory", "why_tests_cant": "histories are unbounded", "anchors": ["include/bignum/impl/bn_type_impl.h: operator+="]}
{"id": "C15", "title": "Same-sign subtraction is exact", "statement": "For well-formed a, b with the same sign (not both empty), a -= b terminates with value(a)-value(b), including when the result changes sign; every borrow chain is handled.", "quantifier": "all same-sign operand pairs, every base and digit width; release builds, enough memory", "why_tests_cant": "the digit count is unbounded, so no finite set of operands covers every carry/borrow chain or every base", "anchors": ["include/bignum/impl/bn_type_impl.h: operator-=, operator-", "include/bignum/impl/bn_subtraction_impl.h: abs_val_sub"]}
{"id": "C16", "title": "Subtraction of numbers of opposite sign is exact", "statement": "For well-formed a, b of opposite sign, a -= b leaves value(a)-value(b).", "quantifier": "all opposite-sign operand pairs; release builds, enough memory", "why_tests_cant": "must hold for every pair", "anchors": ["include/bignum/impl/bn_type_impl.h: operator-="]}
{"id": "C17", "title": "The exact result of opposite-sign subtraction", "statement": "For a, b of opposite sign (not both empty), a -= b keeps the sign of a and leaves magnitude 0 when no digit/length of a exceeds b, and otherwise (|a|-|b|) modulo base^(number of digits of a); this equals the integer difference only if b is zero or that modular value happens to equal |a|+|b|.", "quantifier": "all opposite-sign well-formed operand pairs; release builds, enough memory", "why_tests_cant": "exact characterisation over an unbounded domain", "anchors": ["include/bignum/impl/bn_type_impl.h: operator-="]}
{"id": "C18", "title": "Self subtraction yields zero", "statement": "a -= a (aliased argument) leaves an empty digit sequence (zero) keeping the descriptor for every non-empty a; for an empty a it reads out of bounds.", "quantifier": "all objects with a sign descriptor and any digits", "why_tests_cant": "all digit sequences", "anchors": ["include/bignum/impl/bn_type_impl.h: operator-=", "include/bignum/impl/bn_subtraction_impl.h: abs_val_sub"]}
{"id": "C19", "title": "Subtracting what was added restores the number", "statement": "For same-sign well-formed a, b, (a + b) - b denotes value(a) and, when a is non-zero, is == to a.", "quantifier": "all same-sign pairs; release builds, enough memory", "why_tests_cant": "round trip over all pairs", "anchors": ["include/bignum/impl/bn_type_impl.h: operator+, operator-"]}
{"id": "C20", "title": "Magnitude subtraction contract", "statement": "abs_val_sub(larger, smaller) with larger not shorter than smaller, non-empty, and at least as large in value leaves exactly the difference with all leading zeros removed; with an empty first argument or a longer second argument it always reads out of bounds.", "quantifier": "all pairs of digit sequences, every digit type; release builds", "why_tests_cant": "the digit count is unbounded, so no finite set of operands covers every carry/borrow chain or every base", "anchors": ["include/bignum/impl/bn_subtraction_impl.h: abs_val_sub"]}
{"id": "C21", "title": "Magnitude addition contract", "statement": "abs_val_add(out, in) for arbitrary in-range digit sequences (leading zeros allowed) terminates with a sequence denoting the exact sum, of length between max(1,len) and max(len)+1, never accessing out of bounds.", "quantifier": "all pairs of digit sequences, every digit type; enough memory", "why_tests_cant": "the digit count is unbounded, so no finite set of operands covers every carry/borrow chain or every base", "anchors": ["include/bignum/impl/bn_addition_impl.h: abs_val_add"]}
{"id": "C22", "title": "FFT multiplication computes the convolution (exact arithmetic)", "statement": "With exact complex arithmetic, the packed-FFT pipeline used by operator* (table creation, forward transform, pointwise products with the conjugate-index trick, inverse transform) yields, at every index, exactly the digit convolution of the two operands, for every pair of lengths.", "quantifier": "all pairs of digit sequences not both empty, all lengths up to 2^32 digits; enough memory", "why_tests_cant": "the transform size is unbounded; an identity between transforms over all inputs", "anchors": ["include/bignum/impl/fourier_impl.h: fft_complex, ifft_complex, create_fft_table, convolute_fft, nextPow2, isPow2", "include/bignum/impl/bn_multiplication_impl.h: mul_strassen"]}
{"id": "C23", "title": "Multiplication is exact when rounding noise stays below one half", "statement": "If every computed convolution coefficient c~ of exact value c satisfies |c~ - c| + u*(c+1) < 1/2, where u is 2^-53 and a thousandth of it (so adding 0.5 and taking the floor recovers c), and min(len)*base*(base-1) fits the double-precision digit type and 2^53, a *= b leaves exactly value(a)*value(b), normalised, with the product sign.", "quantifier": "all operand pairs meeting the bound, every digit type; enough memory", "why_tests_cant": "all operand pairs and all rounding behaviours within the error bound", "anchors": ["include/bignum/impl/bn_type_impl.h: operator*=", "include/bignum/impl/bn_multiplication_impl.h: mul_strassen"]}
{"id": "C24", "title": "Decimal multiplication is exact in IEEE double precision up to a stated length", "statement": "Under the standard rounding model of IEEE-754 double arithmetic (relative error 2^-53 and a thousandth of it per operation, bounded error of sin/cos), products of base-2/8/10/16 numbers are exact for every pair of operands up to an explicit digit count: together 2^25 digits in base 10, 2^24 in base 16; in base 8 the shorter operand at most 1170 digits, in base 2 at most 128.", "quantifier": "all operand pairs up to the stated size, all rounding outcomes permitted by the model; enough memory", "why_tests_cant": "exponentially many operand pairs and rounding outcomes", "anchors": ["include/bignum/impl/bn_multiplication_impl.h: mul_strassen", "include/bignum/impl/fourier_impl.h"]}
{"id": "C25", "title": "Multiplication is exact for the default type", "statement": "For the default type bignum (32-bit digits) and for 8/16-bit digits, a * b denotes value(a)*value(b) for all well-formed a, b.", "quantifier": "all operand pairs of native digit types; enough memory", "why_tests_cant": "must hold for all digits, including large ones", "anchors": ["include/bignum/impl/bn_multiplication_impl.h: mul_strassen"]}
{"id": "C26", "title": "Multiplying two zeros terminates", "statement": "If both operands have no digits (the representation of zero produced by constructors, subtraction and multiplication), a *= b terminates with zero.", "quantifier": "the zero representation, any signs, any recursion budget; enough memory", "why_tests_cant": "non-termination cannot be observed by a terminating test; the claim is about every recursion budget", "anchors": ["include/bignum/impl/fourier_impl.h: fft_complex", "include/bignum/impl/bn_multiplication_impl.h: mul_strassen"]}
{"id": "C27", "title": "Power-of-two padding", "statement": "nextPow2(n) is the least power of two >= n for every 1 <= n <= 2^32 and isPow2(n) holds exactly for powers of two; so the FFT table length is a power of two at least the sum of the operand lengths. Above 2^32 the result is n - 1 with every bit spread over the 31 places below it, plus 1, wrapping around to 0 at 2^64.", "quantifier": "all 64-bit n", "why_tests_cant": "four billion inputs plus the least-ness claim; fails above 2^32", "anchors": ["include/bignum/impl/fourier_impl.h: nextPow2, isPow2, create_fft_table"]}
{"id": "C28", "title": "Schoolbook multiplication is exact for custom bases", "statement": "mul_naive(a,b) for a custom base N with N^2 <= 2^w returns a digit sequence of length len(a)+len(b) with all digits in range denoting exactly value(a)*value(b).", "quantifier": "all digit sequences of lengths p, q < 2^32 with p + q <= 2^32 + 1 (C117: the lengths the 32-bit counters can count), all custom bases with N*N <= 2^w", "why_tests_cant": "the digit count is unbounded, so no finite set of operands covers every carry/borrow chain or every base", "anchors": ["include/bignum/impl/bn_multiplication_impl.h: mul_naive"]}
{"id": "C29", "title": "Schoolbook multiplication is exact for native digit types", "statement": "mul_naive(a,b) is exact for uint8/uint16/uint32 digits.", "quantifier": "all digit sequences of native digit types with lengths as in C28; enough memory", "why_tests_cant": "must hold for all products", "anchors": ["include/bignum/impl/bn_multiplication_impl.h: mul_naive"]}
{"id": "C30", "title": "Sign of a product", "statement": "When a *= b returns normally for operands with sign descriptors, the result descriptor is BN_NEG exactly when the operand descriptors differ.", "quantifier": "all operand pairs, all digit types", "why_tests_cant": "all operands", "anchors": ["include/bignum/impl/bn_type_impl.h: operator*="]}
{"id": "C31", "title": "Division truncates toward zero for custom bases", "statement": "For a custom base and well-formed a, b with |b| > 0 and |a| != |b|, a /= b terminates and leaves magnitude floor(|a|/|b|) with sign NEG iff the signs differ; equivalently |a| = q*|b| + r with 0 <= r < |b|.", "quantifier": "all well-formed operand pairs with |a| != |b|, every custom base; release builds, enough memory", "why_tests_cant": "the loop nest runs an input-dependent unbounded number of times; quotient correctness over all pairs", "anchors": ["include/bignum/impl/bn_type_impl.h: operator/=", "include/bignum/impl/bn_division_impl.h: abs_val_div"]}
{"id": "C32", "title": "Dividing a number by itself gives one", "statement": "For every non-zero well-formed a, a / a denotes 1.", "quantifier": "all non-zero a", "why_tests_cant": "all magnitudes", "anchors": ["include/bignum/impl/bn_type_impl.h: operator/="]}
{"id": "C33", "title": "Division by zero is reported as infinity", "statement": "Dividing a non-zero number by zero terminates and yields +INF/-INF according to the signs.", "quantifier": "all non-zero dividends and all representations of zero that the API itself produces; enough memory", "why_tests_cant": "zero has two representations; one makes the loop run forever which no test can observe", "anchors": ["include/bignum/impl/bn_type_impl.h: operator/=", "include/bignum/impl/bn_division_impl.h: abs_val_div"]}
{"id": "C34", "title": "Division never faults for native digit types", "statement": "For bignum/bignum_lowp/bignum_medp (native 8/16/32-bit digits), a / b with |a| > |b| > 1 returns the quotient.", "quantifier": "all native operand pairs; release builds, enough memory", "why_tests_cant": "must hold for all pairs", "anchors": ["include/bignum/impl/bn_division_impl.h: abs_val_div"]}
{"id": "C35", "title": "Division by one, of zero, and of a smaller number", "statement": "x / 1 leaves the digits unchanged, 0 / x (x not the one-digit zero) leaves zero, and if |x| < |y| the result is the one-digit zero; the sign follows the sign rule, with no undefined behaviour, for every digit type.", "quantifier": "all operands, every digit type (including native); release builds, enough memory", "why_tests_cant": "all operands", "anchors": ["include/bignum/impl/bn_type_impl.h: operator/="]}
{"id": "C36", "title": "Descriptor predicates classify every number", "statement": "isNan, isInfinite, isPositive, isNegative, isComputable partition the five descriptors: exactly one of isPositive/isNegative/isNan holds, isInfinite implies exactly one of isPositive/isNegative, and isComputable(d) is the negation of (isNan or isInfinite).", "quantifier": "all bignum objects", "why_tests_cant": "all objects, any digits", "anchors": ["include/bignum/impl/bn_type_impl.h: isPositive, isNegative, isInfinite, isNan, isComputable"]}
{"id": "C37", "title": "setDescriptor clears digits exactly for NaN/INF", "statement": "setDescriptor(d) makes getDescriptor() return d; the digits become empty when d is NaN or an infinity and are unchanged otherwise.", "quantifier": "all objects and all descriptors", "why_tests_cant": "all digit sequences", "anchors": ["include/bignum/impl/bn_type_impl.h: setDescriptor"]}
{"id": "C38", "title": "NaN and infinity propagate through arithmetic", "statement": "If an operand of +=, -=, *= or /= is NaN or infinite, the result is not a finite number.", "quantifier": "all operand pairs with a NaN/INF operand", "why_tests_cant": "all finite partners", "anchors": ["include/bignum/impl/bn_type_impl.h: operator+=, operator-=, operator*=, operator/="]}
{"id": "C39", "title": "What arithmetic on NaN/INF actually does", "statement": "If the left operand is NaN/INF, each compound operator discards the digits and takes over the right operand's descriptor; if only the right operand is NaN/INF (no digits), += leaves the magnitude of a finite left operand unchanged.", "quantifier": "all operands; enough memory", "why_tests_cant": "all digit sequences", "anchors": ["include/bignum/impl/bn_type_impl.h: operator+=, operator-=, operator*=, operator/="]}
{"id": "C40", "title": "Failed allocation leaves infinity, never a partial result", "statement": "If storage cannot be obtained at any point inside +=, -=, *= or /=, the object ends with no digits and descriptor +INF (right operand BN_POS) or -INF (otherwise), and the exception reaching the caller is a plain std::exception.", "quantifier": "all operands and every allocation-failure point", "why_tests_cant": "every crash point of every operand pair", "anchors": ["include/bignum/impl/bn_type_impl.h: operator+=, operator-=, operator*=, operator/= (catch blocks)"]}
{"id": "C41", "title": "Subscripting is bounds checked", "statement": "operator[](i) returns the i-th least significant digit when i < size(); otherwise it throws BN_ERROR; assigning through it changes only digit i.", "quantifier": "all objects and all indices", "why_tests_cant": "all indices and lengths", "anchors": ["include/bignum/impl/bn_type_impl.h: operator[]", "src/bn_except.cpp: bn_runtime_assert"]}
{"id": "C42", "title": "Digit insertion and removal positions", "statement": "push_front(d) maps value v to v*base+d, push_back(d) to v+d*base^size, push(d,p) inserts at weight base^p; pop_front/pop_back/pop(p) undo the corresponding push exactly.", "quantifier": "all digit sequences, digits and positions; enough memory", "why_tests_cant": "all lengths and positions", "anchors": ["include/bignum/impl/bn_type_impl.h: push_front, push_back, push, pop_front, pop_back, pop"]}
{"id": "C43", "title": "Documented direction of push_front/push_back", "statement": "As documented in bn_type.h, push_front adds a digit of highest magnitude and push_back adds a digit of lowest magnitude.", "quantifier": "all numbers and digits; enough memory", "why_tests_cant": "a documented contract over all numbers", "anchors": ["include/bignum/bn_type.h: push_front, push_back", "include/bignum/impl/bn_type_impl.h: push_front, push_back"]}
{"id": "C44", "title": "resize truncates or extends at the most significant end", "statement": "resize(n) leaves value mod base^n when n <= size and the same value when n > size with the default fill digit; the size becomes n and low digits are untouched; resize(n, d) with n > size puts d at every new position.", "quantifier": "all numbers, all n; enough memory", "why_tests_cant": "all n and digit sequences", "anchors": ["include/bignum/impl/bn_type_impl.h: resize, size"]}
{"id": "C45", "title": "Construction from a digit list", "statement": "Bignum(desc, {d_k,...,d_0}) denotes the big-endian value of the list, has no leading zero digit, keeps the descriptor, and two lists construct == objects exactly when they agree after removing leading zeros.", "quantifier": "all initializer lists of all lengths; enough memory", "why_tests_cant": "all lists", "anchors": ["include/bignum/impl/bn_type_impl.h: Bignum(bn_desc_t, initializer_list)"]}
{"id": "C46", "title": "Copy and move semantics", "statement": "Copying gives an object == to the source with the source unchanged; moving gives an object == to the old source and leaves the source without digits; clear() yields the default object.", "quantifier": "all objects", "why_tests_cant": "all states", "anchors": ["include/bignum/impl/bn_type_impl.h: copy/move constructors, operator=, clear"]}
{"id": "C47", "title": "Decimal output is the standard numeral", "statement": "Streaming a well-formed base-10 number writes exactly the usual decimal numeral of its value (with '-' for BN_NEG, '0' for the empty zero); base-8 likewise writes the octal numeral; hence output determines the value.", "quantifier": "all base-10/base-8 numbers", "why_tests_cant": "all numbers; injectivity is a statement about all pairs", "anchors": ["include/bignum/impl/bn_type_impl.h: operator<<", "include/bignum/impl/bn_int_type_impl.h: operator<<"]}
{"id": "C48", "title": "Output is unambiguous in every base", "statement": "Two well-formed numbers of the same type with different values never print the same text.", "quantifier": "all pairs of numbers, all types", "why_tests_cant": "injectivity over all pairs", "anchors": ["include/bignum/impl/bn_type_impl.h: operator<<"]}
{"id": "C49", "title": "BNIntType arithmetic is arithmetic modulo 2^w", "statement": "For 8/16/32/64-bit BNIntType, + and - (and *, outside the 16-bit promotion hazard) equal the operation on naturals modulo 2^w, &,|,^,~ are bitwise, compound assignment equals the binary operator followed by assignment, and no such operation is undefined.", "quantifier": "all operand pairs, all four widths", "why_tests_cant": "2^128 operand pairs at 64 bits", "anchors": ["include/bignum/impl/bn_int_type_impl.h: BN_INT_TYPE_BINARY_OP"]}
{"id": "C50", "title": "BNIntType undefined behaviour is exactly the promotion/zero/shift hazards", "statement": "/ and % are undefined exactly for a zero divisor; * is undefined exactly for 16-bit operands whose product exceeds 2^31-1; shifts are undefined exactly when the amount is at least the promoted width, or, for a left shift of a promoted narrow value, when the result does not fit 32 bits; otherwise / and % are the natural quotient and remainder.", "quantifier": "all operand pairs, all widths", "why_tests_cant": "all operand pairs", "anchors": ["include/bignum/impl/bn_int_type_impl.h: BN_INT_TYPE_BINARY_OP"]}
{"id": "C51", "title": "BNIntType comparisons are the order of the stored naturals", "statement": "==, !=, <, <=, >, >= on BNIntType (either side a plain integer of the same type) agree with the natural-number comparison of the stored values.", "quantifier": "all operand pairs, all widths", "why_tests_cant": "all operand pairs", "anchors": ["include/bignum/impl/bn_int_type_impl.h: BN_INT_TYPE_BOOL_OP, BN_INT_TYPE_BOOL_OP_R"]}
{"id": "C52", "title": "Increment and decrement", "statement": "Prefix ++/-- return the new value, postfix return the old one, both change the value by 1 modulo 2^w; ++ followed by -- restores the value.", "quantifier": "all values, all widths", "why_tests_cant": "2^64 values", "anchors": ["include/bignum/impl/bn_int_type_impl.h: operator++, operator--"]}
{"id": "C53", "title": "Limits describe the base", "statement": "For every preset type SINGLE_BASE_MIN is 0, SINGLE_BASE_MAX+1 is the base, sums of two digits and a carry fit the double digit type, and squares of digits fit it for all presets. A type made of a pair of built-in types uses all values of the first as digits, a type made of BNIntType the digits up to its maximum.", "quantifier": "all preset limit types and all digits in range; all pairs of built-in types and all custom bases", "why_tests_cant": "all digit pairs", "anchors": ["include/bignum/impl/bn_limits_impl.h", "include/bignum/bn_limits.h: BNLimitsType"]}
{"id": "C54", "title": "Runtime assertion contract", "statement": "bn_runtime_assert(c, type, msg) does nothing when c holds; otherwise it writes prefix+msg to stderr for warnings/errors and stdout for alerts, and throws exactly when type is BN_ERROR.", "quantifier": "all conditions, types and messages", "why_tests_cant": "all messages", "anchors": ["src/bn_except.cpp: bn_runtime_assert"]}
{"id": "C55", "title": "Digits stay in range through any history", "statement": "Starting from constructed numbers, after any sequence of member operations (push/pop/resize/subscript assignment with in-range digits, setDescriptor, clear, assignment, +=, -=, *=, /=) that completes, every digit of the object is in [0, base).", "quantifier": "all finite histories over objects, every base", "why_tests_cant": "unbounded histories", "anchors": ["include/bignum/impl/bn_type_impl.h"]}
{"id": "C56", "title": "Debug builds accept every legal subtraction", "statement": "With BN_DEBUG defined, abs_val_sub throws BNUnderflow only if the first operand is really smaller than the second.", "quantifier": "all operand pairs in debug builds", "why_tests_cant": "all operand pairs", "anchors": ["include/bignum/impl/bn_subtraction_impl.h: abs_val_sub", "include/bignum/impl/bn_compare_impl.h: abs_val_is_lt"]}
{"id": "C57", "title": "Release and debug builds agree when the debug check passes", "statement": "For any operands for which the BN_DEBUG check does not throw, abs_val_sub computes the same result in debug and release builds.", "quantifier": "all operand pairs", "why_tests_cant": "all pairs", "anchors": ["include/bignum/impl/bn_subtraction_impl.h: abs_val_sub"]}
{"id": "C58", "title": "Fuel/termination of the arithmetic loops", "statement": "The loops of addition, subtraction and (non-zero divisor, custom base) division terminate for every input; addition needs at most max(len)+1 iterations.", "quantifier": "all inputs", "why_tests_cant": "termination is not observable by finite testing", "anchors": ["include/bignum/impl/bn_addition_impl.h: abs_val_add", "include/bignum/impl/bn_subtraction_impl.h: abs_val_sub", "include/bignum/impl/bn_division_impl.h: abs_val_div"]}
{"id": "C59", "title": "Numbers stay well formed through whole-number histories", "statement": "In any program that builds numbers only by construction, copy/move assignment, setDescriptor, clear and the arithmetic operators (also aliased, also with special values, also continuing after exceptions), every number held at the end has all digits in [0, base) and no leading zero except the one-digit zero.", "quantifier": "all finite statement sequences, all supported digit types, all allocator behaviours", "why_tests_cant": "histories are unbounded", "anchors": ["include/bignum/impl/bn_type_impl.h: operators", "include/bignum/impl/bn_division_impl.h: abs_val_div", "include/bignum/impl/bn_addition_impl.h: abs_val_add", "include/bignum/impl/bn_subtraction_impl.h: abs_val_sub"]}
{"id": "C60", "title": "Copy assignment is all or nothing", "statement": "x = y either makes x equal to y or throws and leaves x as it was.", "quantifier": "all x, y, all allocator behaviours", "why_tests_cant": "allocation failures cannot be injected exhaustively", "anchors": ["include/bignum/impl/bn_type_impl.h: operator=(const Bignum&)"]}
{"id": "C61", "title": "The compression client writes back its input", "statement": "The program of tests/compress_test.cpp (text pushed into a base-256 number, bits taken off by repeated division by two, put together again by repeated doubling) writes back exactly the text it was given. With little memory it does so or ends with an exception; it never writes anything else.", "quantifier": "all texts (the second sentence: all allocators); release builds, enough memory", "why_tests_cant": "all texts of all lengths; every division and product inside depends on all earlier digits", "anchors": ["tests/compress_test.cpp: compress, decompress", "include/bignum/impl/bn_division_impl.h: abs_val_div", "include/bignum/impl/bn_multiplication_impl.h", "include/bignum/impl/bn_addition_impl.h: abs_val_add"]}
{"id": "C62", "title": "Leading zero digits do not change results", "statement": "Extending a number by zero digits at the most significant end (push_back(0), resize) leaves its value alone, so comparison, addition, subtraction, multiplication and division with it give the same results.", "quantifier": "all numbers, all operand pairs, any number of leading zeros; enough memory", "why_tests_cant": "all numbers and paddings", "anchors": ["include/bignum/impl/bn_type_impl.h: push_back, resize, operators", "include/bignum/impl/bn_compare_impl.h", "include/bignum/impl/bn_subtraction_impl.h: abs_val_sub", "include/bignum/impl/bn_division_impl.h: abs_val_div"]}
{"id": "C63", "title": "The arithmetic test program leaves its variable unchanged", "statement": "The statement sequence of tests/arithmetic_test.cpp, a += b; a -= b; a *= b; a /= b, leaves a with the value it had, for all non-negative a and positive b.", "quantifier": "all pairs of non-negative a and positive b of the base-10 type; release builds, enough memory, IEEE 754 doubles", "why_tests_cant": "the sequence chains four operators over all operand pairs", "anchors": ["tests/arithmetic_test.cpp: main", "include/bignum/impl/bn_type_impl.h: operator+=, operator-=, operator*=, operator/="]}
{"id": "C64", "title": "Whole programs compute integer arithmetic", "statement": "Any finite program of constructions, copies, assignments and +, -, *, / (compound or binary, also aliased) on any number of variables leaves in every variable exactly the value the same program over the integers leaves, provided each statement is in the part of the domain where the operator is right: magnitudes below a stated bound for products, no opposite-sign subtraction, no division by zero or of a magnitude by itself.", "quantifier": "all finite programs over all stores, bases 2, 8, 10 and 16; release builds, enough memory, IEEE 754 doubles", "why_tests_cant": "unbounded programs over unbounded values", "anchors": ["include/bignum/impl/bn_type_impl.h: operators", "tests/arithmetic_test.cpp"]}
{"id": "C65", "title": "The integer test program has no undefined behaviour", "statement": "The operator exercise of tests/integer_test.cpp runs without undefined behaviour and prints the results of every operator for all operands the user may enter.", "quantifier": "all pairs of 32-bit operands", "why_tests_cant": "2^64 operand pairs", "anchors": ["tests/integer_test.cpp", "include/bignum/impl/bn_int_type_impl.h"]}
{"id": "C66", "title": "BNIntType values can be read back from their own output", "statement": "Writing a BNIntType to a stream and reading it with operator>> gives the value back.", "quantifier": "all values, all four widths, all following input", "why_tests_cant": "all values and all continuations of the stream", "anchors": ["include/bignum/impl/bn_int_type_impl.h: operator<<, operator>>"]}
{"id": "C67", "title": "How long factors may be in base 2 and base 8", "statement": "Products of all p-digit numbers with all q-digit numbers are exact if and only if the shorter length is at most 128 (base 2) or 1170 (base 8); beyond it the product of the two numbers with only maximal digits is undefined behaviour (conversion of an out-of-range double).", "quantifier": "all pairs of lengths with 1 <= p+q <= 2^32, all operands of these lengths; enough memory", "why_tests_cant": "exact threshold over all operands of all lengths", "anchors": ["include/bignum/impl/bn_multiplication_impl.h: mul_strassen", "include/bignum/impl/bn_limits_impl.h"]}
{"id": "C68", "title": "A product of small digits that is returned is right", "statement": "For 8-bit and 16-bit digits, base 2, base 8 and base 256 (in 16 bits), a *= b is exact (right digits, normalised, right sign) when no schoolbook column total of the operands (digit products of the column plus the carry from below) exceeds the double-width digit type, and otherwise the call is undefined behaviour; so a product that is returned is never wrong.", "quantifier": "all well-formed operand pairs up to a stated total length (2^18 digits for 8-bit, 2^8 for 16-bit, 2^28 for base 2, 2^25 for base 8, 2^18 for base 256), all allocators, all budgets", "why_tests_cant": "the criterion ranges over all columns of all operand pairs", "anchors": ["include/bignum/impl/bn_multiplication_impl.h: mul_strassen", "include/bignum/impl/bn_limits_impl.h"]}
{"id": "C69", "title": "Division takes logarithmically many rounds", "statement": "For a custom base and well-formed operands of different magnitudes with non-zero divisor, every loop executed by a /= b (rounds, doublings within a round, digit loops) ends within bits(|a|) + 2 iterations, where bits is the length in binary, and the quotient is right.", "quantifier": "all well-formed operand pairs, every custom base; release builds, enough memory", "why_tests_cant": "an iteration bound over all operands; no finite set of timings establishes it", "anchors": ["include/bignum/impl/bn_division_impl.h: abs_val_div", "include/bignum/impl/bn_type_impl.h: operator/="]}
{"id": "C70", "title": "Debug builds give the release result or an exception", "statement": "With BN_DEBUG defined, each of +=, -=, *=, /= ends exactly as in a release build or throws a std::exception leaving an infinity; multiplication and same-sign addition never differ; subtraction of same-sign (addition of opposite-sign) numbers throws exactly when the magnitudes have the same length and each has a digit above the other's.", "quantifier": "all operands (any digits, any descriptor, aliased or not), all digit types, all allocators, all budgets; enough memory for the last claim", "why_tests_cant": "all operands in two builds", "anchors": ["include/bignum/impl/bn_type_impl.h: operator+=, operator-=, operator*=, operator/=", "include/bignum/impl/bn_subtraction_impl.h: abs_val_sub", "include/bignum/impl/bn_division_impl.h: abs_val_div"]}
{"id": "C71", "title": "A quiet debug run predicts the release run", "statement": "A program whose arithmetic statements throw nothing in a debug build ends with the same objects in a release build.", "quantifier": "all finite programs over all stores, digit types and allocators", "why_tests_cant": "all programs", "anchors": ["include/bignum/impl/bn_type_impl.h", "include/bignum/impl/bn_subtraction_impl.h: abs_val_sub"]}
{"id": "C72", "title": "Multiplication obeys the laws of arithmetic", "statement": "a*b and b*a are the identical object; (a*b)*c and a*(b*c) are the identical object; a*1 is a; a*0 is zero; a*(b+c) and a*b+a*c have the same value and are the identical object when it is not zero.", "quantifier": "all well-formed operands of the base-2, 8, 10 and 16 types up to the stated lengths (not both factors empty; for distributivity a and one of b, c not zero); enough memory, IEEE 754 doubles", "why_tests_cant": "identities over all triples of numbers", "anchors": ["include/bignum/impl/bn_type_impl.h: operator*, operator+", "include/bignum/impl/bn_multiplication_impl.h"]}
{"id": "C73", "title": "Remainder through the operators", "statement": "a - (a / b) * b is |a| mod |b| with the sign of a, for every non-zero b.", "quantifier": "all well-formed operands of the base-2, 8, 10 and 16 types with a non-empty and non-zero b; release builds, enough memory", "why_tests_cant": "all pairs, three chained operators", "anchors": ["include/bignum/impl/bn_type_impl.h: operator/, operator*, operator-"]}
{"id": "C74", "title": "Euclid's algorithm written with the operators", "statement": "The loop while (b != 0) { t = a - (a/b)*b; a = b; b = t; } ends with the greatest common divisor for all positive a and b.", "quantifier": "all pairs of positive numbers of the base-2, 8, 10 and 16 types; release builds, enough memory", "why_tests_cant": "unbounded loop over all pairs; non-termination is not observable by a test", "anchors": ["include/bignum/impl/bn_type_impl.h: operator!=, operator/, operator*, operator-, copy and move assignment"]}
{"id": "C75", "title": "The Fourier transform functions compute the discrete Fourier transform", "statement": "For a list of 2^k complex numbers, fft_complex leaves the discrete Fourier transform of the list, ifft_complex the inverse transform, ifft_complex after fft_complex the original list, and convolute_fft the pointwise product of the transforms of the real and of the imaginary parts.", "quantifier": "all k and all lists of length 2^k (convolute_fft: k <= 64), exact arithmetic", "why_tests_cant": "all lists of all lengths; floating-point tests cannot separate a wrong formula from rounding", "anchors": ["include/bignum/impl/fourier_impl.h: fft_complex, ifft_complex, convolute_fft", "include/bignum/fourier.h"]}
{"id": "C76", "title": "fft_complex transforms lists of any length", "statement": "fft_complex terminates and leaves the discrete Fourier transform for every list, including lengths that are no power of two.", "quantifier": "all lists", "why_tests_cant": "all lengths", "anchors": ["include/bignum/impl/fourier_impl.h: fft_complex"]}
{"id": "C77", "title": "Rounding error of the Fourier transform", "statement": "In IEEE double precision the root-mean-square error of fft_complex on 2^k points is at most 31*k units of roundoff times the size of the data, and fft_complex followed by ifft_complex returns the data up to 63*k+3 units of roundoff times its size, where a unit of roundoff is 2^-53 and a thousandth of it; no overflow occurs for data below a stated bound.", "quantifier": "all k <= 40 and all lists of 2^k finite numbers whose energy is below the bound", "why_tests_cant": "error bounds over all inputs; sampled errors are no bound", "anchors": ["include/bignum/impl/fourier_impl.h: fft_complex, ifft_complex"]}
{"id": "C78", "title": "Printed numbers can be read back", "statement": "Handing the characters printed by operator<< (after stripping a minus sign) as digits to the list constructor gives back the same sign and value, and the identical object unless it was a zero with a digit; conversely any text of digits, leading zeros included, read this way and printed is the usual numeral of its value.", "quantifier": "all well-formed numbers and all digit texts, bases 2 to 10 with digits wider than 8 bits; enough memory", "why_tests_cant": "all numbers and texts of all lengths", "anchors": ["include/bignum/impl/bn_type_impl.h: operator<<, constructor from a list"]}
{"id": "C79", "title": "Reading a number by Horner's rule", "statement": "The loop x = x * base + digit over the characters of a text leaves the value of the text, and the very object the list constructor builds from it when the value is not zero.", "quantifier": "all digit texts up to the stated product lengths, bases 2, 8, 10 and 16; enough memory", "why_tests_cant": "unbounded loops over all texts", "anchors": ["include/bignum/impl/bn_type_impl.h: operator*, operator+, constructor from a list", "include/bignum/impl/bn_multiplication_impl.h", "include/bignum/impl/bn_addition_impl.h: abs_val_add"]}
{"id": "C80", "title": "Dividing a product by a factor", "statement": "(a * b) / b is a for every non-zero b.", "quantifier": "all well-formed a and non-zero b of the base-2, 8, 10 and 16 types up to the stated lengths; release builds, enough memory", "why_tests_cant": "all pairs, two chained operators", "anchors": ["include/bignum/impl/bn_type_impl.h: operator*, operator/"]}
{"id": "C81", "title": "Powers by repeated squaring", "statement": "The loop r = 1; while (e) { if (e & 1) r = r * x; x = x * x; e >>= 1; } leaves the normalised number x^e for every non-zero x, negative ones included; for a zero without digits it never returns.", "quantifier": "all non-zero well-formed x and all exponents up to the stated lengths, bases 2, 8, 10 and 16; enough memory", "why_tests_cant": "unbounded loops; non-termination is not observable by a test", "anchors": ["include/bignum/impl/bn_type_impl.h: operator*", "include/bignum/impl/bn_multiplication_impl.h"]}
{"id": "C82", "title": "Comparison agrees with the sign of the difference", "statement": "For non-negative a and b without leading zeros, not both without digits, a >= b exactly when a - b is not negative, and a == b exactly when a - b equals a default-constructed number.", "quantifier": "all pairs, every supported digit type; release builds, enough memory", "why_tests_cant": "all pairs, two independent code paths compared", "anchors": ["include/bignum/impl/bn_type_impl.h: operator>=, operator-, operator==, isNegative"]}
{"id": "C83", "title": "The calculator test prints right results", "statement": "For operands of opposite signs the comparisons, sums, differences, products and quotients printed by the macro of tests/arithmetic_test.cpp are those of the integers.", "quantifier": "all pairs of non-zero operands of opposite signs and different magnitudes, bases 2, 8, 10 and 16; release builds, enough memory, IEEE 754 doubles", "why_tests_cant": "twelve operators over all pairs", "anchors": ["tests/arithmetic_test.cpp: CREATE_BN_TEST", "include/bignum/impl/bn_type_impl.h: operators"]}
{"id": "C84", "title": "Multiplying up a list", "statement": "Starting from 1 and multiplying by each element of a list gives the product of the integers, normalised; the resulting object does not depend on the order of the list.", "quantifier": "all finite lists of well-formed numbers with at least one digit of the base-2, 8, 10 and 16 types up to the stated total length (order: non-zero elements); enough memory, IEEE 754 doubles", "why_tests_cant": "all lists and all orders", "anchors": ["include/bignum/impl/bn_type_impl.h: operator*", "include/bignum/impl/bn_multiplication_impl.h"]}
{"id": "C85", "title": "The Fibonacci loop", "statement": "The loop a = 0, b = 1; repeat k times t = a + b; a = b; b = t leaves the k-th Fibonacci number in a.", "quantifier": "all k, every supported digit type; enough memory", "why_tests_cant": "unbounded loop lengths and numbers", "anchors": ["include/bignum/impl/bn_type_impl.h: operator+, copy assignment, constructor from a list", "include/bignum/impl/bn_addition_impl.h: abs_val_add"]}
{"id": "C86", "title": "Counting loops stop at the bound", "statement": "The loop for (i = 0; i < bound; i = i + step) ends with the least multiple of step that is not below the bound.", "quantifier": "all non-negative bounds and positive steps, every supported digit type; enough memory", "why_tests_cant": "unbounded loops over all bounds and steps", "anchors": ["include/bignum/impl/bn_type_impl.h: operator<, operator>=, operator+", "include/bignum/impl/bn_compare_impl.h"]}
{"id": "C87", "title": "std::max", "statement": "std::max(a, b), that is (a < b) ? b : a, returns the larger number.", "quantifier": "all pairs of non-negative numbers without leading zeros", "why_tests_cant": "all pairs", "anchors": ["include/bignum/impl/bn_type_impl.h: operator<, operator>=", "include/bignum/impl/bn_compare_impl.h"]}
{"id": "C88", "title": "Sorting", "statement": "Insertion sort with a comparison operator of the library gives a permutation of the list in increasing order.", "quantifier": "all lists of non-negative numbers without leading zeros", "why_tests_cant": "all lists", "anchors": ["include/bignum/impl/bn_type_impl.h: operator<, operator<=", "include/bignum/impl/bn_compare_impl.h"]}
{"id": "C89", "title": "Integer square root by Newton's iteration", "statement": "The loop x = m; for (;;) { y = (x + m / x) / 2; if (y >= x) return x; x = y; } returns the integer square root of m.", "quantifier": "all non-negative m, every custom base; release builds, enough memory", "why_tests_cant": "unbounded loops over all numbers; non-termination is not observable by a test", "anchors": ["include/bignum/impl/bn_type_impl.h: operator/, operator+, operator>=", "include/bignum/impl/bn_division_impl.h: abs_val_div"]}
{"id": "C90", "title": "Writing a number to another base", "statement": "The loop while (x != 0) { out.push_back(x - (x / d) * d); x = x / d; } leaves the digits of x to base d.", "quantifier": "all positive x and all d >= 2 of the base-2, 8, 10 and 16 types up to the stated lengths; release builds, enough memory", "why_tests_cant": "all numbers and bases, unbounded loops", "anchors": ["include/bignum/impl/bn_type_impl.h: operator!=, operator/, operator*, operator-", "include/bignum/impl/bn_division_impl.h: abs_val_div"]}
{"id": "C91", "title": "Changing signs", "statement": "Changing the sign of both operands of += or -= changes the sign of the result and nothing else (the same digits, the same exceptions); changing the sign of one operand of *= or /= changes the sign of the result; a + (-b) has the value a - b.", "quantifier": "all operands, right-hand sides, allocator behaviours and digit types (sums and differences); all returning calls (products and quotients); all well-formed a, b not both without digits (last claim)", "why_tests_cant": "pairs of runs over all operands", "anchors": ["include/bignum/impl/bn_type_impl.h: operator+=, operator-=, operator*=, operator/=, setDescriptor"]}
{"id": "C92", "title": "Dividing twice is dividing by the product", "statement": "(a / b) / c and a / (b * c) have the same value.", "quantifier": "all well-formed a and non-zero b, c of the base-2, 8, 10 and 16 types up to the stated lengths; release builds, enough memory", "why_tests_cant": "all triples of numbers", "anchors": ["include/bignum/impl/bn_type_impl.h: operator/, operator*", "include/bignum/impl/bn_division_impl.h: abs_val_div"]}
{"id": "C93", "title": "Multiplying and dividing by the base shifts digits", "statement": "x * base is the very object push_front(0) leaves, x / base the very object pop_front() leaves, and the remainder has the value of x[0].", "quantifier": "all numbers without leading zeros (with at least two digits for the quotient) of the preset types up to the stated lengths; release builds, enough memory", "why_tests_cant": "all numbers, agreement of two unrelated code paths", "anchors": ["include/bignum/impl/bn_type_impl.h: operator*, operator/, push_front, pop_front, operator[]", "include/bignum/impl/bn_multiplication_impl.h", "include/bignum/impl/bn_division_impl.h: abs_val_div"]}
{"id": "C94", "title": "Factorials", "statement": "The loop r = 1; for (i = 1; i <= m; i += 1) r *= i leaves m! for every positive m.", "quantifier": "all positive m of the base-2, 8, 10 and 16 types whose factorial fits the stated lengths; enough memory, IEEE 754 doubles", "why_tests_cant": "unbounded loop lengths and numbers", "anchors": ["include/bignum/impl/bn_type_impl.h: operator*, operator+, operator<="]}
{"id": "C95", "title": "Primality by trial division", "statement": "The loop for (d = 2; d * d <= m; d += 1) if (m - m / d * d == 0) return false; return true; decides whether m is prime.", "quantifier": "all m >= 2 of the base-2, 8, 10 and 16 types up to the stated lengths; release builds, enough memory, IEEE 754 doubles", "why_tests_cant": "unbounded loop lengths and numbers", "anchors": ["include/bignum/impl/bn_type_impl.h: operator*, operator/, operator-, operator+, operator<=, operator=="]}
{"id": "C96", "title": "Modular exponentiation", "statement": "Square-and-multiply with reduction p - p / m * m after each product returns x^e mod m.", "quantifier": "all positive x, m >= 2 of the base-2, 8, 10 and 16 types up to the stated lengths and all exponents; release builds, enough memory, IEEE 754 doubles", "why_tests_cant": "unbounded loop lengths and numbers", "anchors": ["include/bignum/impl/bn_type_impl.h: operator*, operator/, operator-"]}
{"id": "C97", "title": "Printing with std::hex, std::oct and std::dec", "statement": "Printing changes nothing of the stream's formatting but the width, which becomes 0; with a radix flag not below the base of the digits and neither width nor showbase the text is the usual numeral (hexadecimal letters in the case asked for), and two numbers with the same text have the same sign and value.", "quantifier": "all stream states and all well-formed numbers whose digits are not 8-bit types", "why_tests_cant": "all numbers and formatting states", "anchors": ["include/bignum/impl/bn_type_impl.h: operator<<", "include/bignum/impl/bn_limits_impl.h"]}
{"id": "C98", "title": "std::setw pads the whole number", "statement": "With setw(n), fill and left/right adjustment set on the stream, the text of a number is padded to n characters as a built-in integer's would be.", "quantifier": "all stream states without showbase and all numbers", "why_tests_cant": "all numbers, widths and fill characters", "anchors": ["include/bignum/impl/bn_type_impl.h: operator<<"]}
{"id": "C99", "title": "std::showbase prefixes a number once", "statement": "With std::hex and std::showbase a base-16 number is printed as 0x followed by its numeral.", "quantifier": "all non-zero base-16 numbers", "why_tests_cant": "all numbers", "anchors": ["include/bignum/impl/bn_type_impl.h: operator<<"]}
{"id": "C100", "title": "Failures can be caught as std::exception", "statement": "Whatever a call of the library throws is a std::exception: the compound operators throw plain std::exceptions only (never bad_alloc or BNUnderflow), the binary operators additionally bad_alloc when the left operand cannot be copied, constructors and digit operations bad_alloc only, comparisons nothing.", "quantifier": "all operands, digit types, allocators and build modes", "why_tests_cant": "all failure points", "anchors": ["include/bignum/impl/bn_type_impl.h: operator+=, -=, *=, /=, +, -, *, /, [], push, pop, resize, constructors", "src/bn_except.cpp"]}
{"id": "C101", "title": "When debug builds refuse a division", "statement": "With BN_DEBUG defined, a /= b with |b| > 1 throws exactly when, for some binary digit k of the quotient that is 1, a mod b*2^(k+1) and b*2^k have equally many digits and each has a digit above the other's; otherwise it ends as in a release build. Dividing by 1 or by itself never throws.", "quantifier": "all well-formed operands of every custom base; enough memory", "why_tests_cant": "all pairs of numbers and all rounds of the long division", "anchors": ["include/bignum/impl/bn_division_impl.h: abs_val_div", "include/bignum/impl/bn_subtraction_impl.h: abs_val_sub"]}
{"id": "C102", "title": "NaN and infinities in comparisons", "statement": "Plus infinity is greater and minus infinity less than every finite number, and NaN is unordered: every comparison with it but != is false.", "quantifier": "all numbers", "why_tests_cant": "all operands of six operators", "anchors": ["include/bignum/impl/bn_type_impl.h: operator==, !=, >, >=, <, <=, setDescriptor", "include/bignum/impl/bn_compare_impl.h"]}
{"id": "C103", "title": "Least common multiple", "statement": "With g the result of Euclid's algorithm, a * b / g and a / g * b are the least common multiple of a and b.", "quantifier": "all positive a, b of the base-2, 8, 10 and 16 types up to the stated lengths; release builds, enough memory, IEEE 754 doubles", "why_tests_cant": "unbounded loops over all pairs; non-termination is not observable by a test", "anchors": ["include/bignum/impl/bn_type_impl.h: operator*, operator/, operator-, operator!=", "include/bignum/impl/bn_division_impl.h: abs_val_div", "include/bignum/impl/bn_multiplication_impl.h"]}
{"id": "C104", "title": "Interval bisection", "statement": "The loop while (lo + 1 < hi) { mid = (lo + hi) / 2; if (test(mid)) lo = mid; else hi = mid; }, started from ends that answer yes and no, returns a number of the interval that answers yes and whose successor answers no; with the test x * x <= m it is the integer square root.", "quantifier": "all intervals of non-negative numbers and all tests, every custom base (square root: the preset types); enough memory", "why_tests_cant": "all tests and intervals; non-termination is not observable by a test", "anchors": ["include/bignum/impl/bn_type_impl.h: operator+, operator/, operator<, operator<=", "include/bignum/impl/bn_division_impl.h: abs_val_div", "include/bignum/impl/bn_compare_impl.h"]}
{"id": "C105", "title": "What size() tells", "statement": "size() of a non-zero well-formed number is one more than the logarithm of its absolute value to the base, and is monotone in it; a sum of numbers of the same sign has the larger size or one more, a difference at most the larger size, a product the sum of the sizes or one less, a quotient by a smaller number the difference of the sizes or one more.", "quantifier": "all well-formed numbers, non-zero operands (sums, differences: every supported digit type; products: preset types up to the stated lengths; quotients: custom bases); enough memory (differences and quotients: release builds; products: IEEE 754 doubles)", "why_tests_cant": "all pairs of numbers of all sizes", "anchors": ["include/bignum/impl/bn_type_impl.h: size, operator+, operator-, operator*, operator/"]}
{"id": "C106", "title": "How much memory an operator needs", "statement": "Given more memory an operator ends the same way or ends where it threw before; with room for one digit more than the longer operand an addition, with room for a copy of the longer operand a subtraction, with room for twice the digits of both factors a product, and with room for one digit more than the dividend a division ends as with unlimited memory. An addition of numbers of the same sign throws exactly when a size between that of the left operand and that of the sum is refused. Division of a number by a zero without digits uses up any finite memory and then throws.", "quantifier": "all operands, all pairs of allocators, both builds (storage bounds: digits in range; products: both factors within 2^32 digits; quotients: custom bases, well-formed numbers)", "why_tests_cant": "all allocators and all sizes; failures of allocation cannot be provoked at every point by a test", "anchors": ["include/bignum/impl/bn_type_impl.h: operator+=, operator-=, operator*=, operator/=", "include/bignum/impl/bn_addition_impl.h: abs_val_add", "include/bignum/impl/bn_subtraction_impl.h: abs_val_sub", "include/bignum/impl/bn_multiplication_impl.h", "include/bignum/impl/bn_division_impl.h: abs_val_div"]}
{"id": "C107", "title": "More memory does not change what programs compute", "statement": "A program none of whose statements throws in little memory ends with exactly the same objects in more memory.", "quantifier": "all programs, stores, digit types and allocators that may change from statement to statement", "why_tests_cant": "all programs and allocators", "anchors": ["include/bignum/impl/bn_type_impl.h: constructors, operator=, resize, push_front, push_back, push, operator+=, operator-=, operator*=, operator/=, operator+, operator-, operator*, operator/"]}
{"id": "C108", "title": "Results do not depend on the platform's floating-point library", "statement": "Products, and programs whose products stay within the lengths the type is exact for, give the same objects on any two platforms whose floating-point arithmetic obeys IEEE 754 and whose sine and cosine are accurate to the stated error.", "quantifier": "all programs, stores and allocators, the base-2, 8, 10 and 16 types, any two implementations of the floating-point functions", "why_tests_cant": "a test runs on one platform", "anchors": ["include/bignum/impl/bn_type_impl.h: operator*=, operator*", "include/bignum/impl/bn_multiplication_impl.h", "include/bignum/impl/fourier_impl.h"]}
{"id": "C109", "title": "The same result in every build with every allocator", "statement": "Where a release build with unlimited memory returns a result, every build with every allocator returns that result or throws a standard exception with an infinity left in the receiver; two calls that return, in whatever environments, return the same object; where the release build never returns, no environment makes the operator return.", "quantifier": "the four operators, all operands, digit types, allocators and both builds", "why_tests_cant": "all allocators, both builds and all operands", "anchors": ["include/bignum/impl/bn_type_impl.h: operator+=, operator-=, operator*=, operator/=", "include/bignum/impl/bn_subtraction_impl.h: abs_val_sub", "include/bignum/impl/bn_division_impl.h: abs_val_div"]}
{"id": "C110", "title": "Programs compute the same in every environment", "statement": "A program none of whose statements throws leaves the same objects in a debug or release build and with any allocator; a program over the integers leaves the integers of the mathematics.", "quantifier": "all programs, stores, builds and allocators changing from statement to statement (integers: every custom base, numbers within the lengths products are exact for)", "why_tests_cant": "all programs and environments", "anchors": ["include/bignum/impl/bn_type_impl.h: constructors, operator=, resize, push_front, push_back, push, operator+=, operator-=, operator*=, operator/=, operator+, operator-, operator*, operator/"]}
{"id": "C111", "title": "Memory may run out at any moment", "statement": "Whichever single requests for memory are refused during an operator, it ends as in a release build with unlimited memory or throws a standard exception with an infinity left in the receiver; if every request up to the size of the stated storage is granted whenever it is made, it ends as with unlimited memory.", "quantifier": "the four operators, all operands, digit types (storage: custom bases, well-formed operands), builds, and all allocators with an answer of their own for every request", "why_tests_cant": "all sequences of granted and refused requests", "anchors": ["include/bignum/impl/bn_type_impl.h: operator+=, operator-=, operator*=, operator/=", "include/bignum/impl/bn_addition_impl.h: abs_val_add", "include/bignum/impl/bn_multiplication_impl.h", "include/bignum/impl/bn_division_impl.h: abs_val_div", "include/bignum/impl/fourier_impl.h"]}
{"id": "C112", "title": "Programs under allocators that fail now and then", "statement": "A program none of whose statements throws leaves the same objects whichever requests for memory were granted on the way; a program over the integers leaves the integers of the mathematics.", "quantifier": "all programs, stores, builds and all allocators with an answer of their own for every request (integers: every custom base, numbers within the lengths products are exact for)", "why_tests_cant": "all programs and all sequences of granted and refused requests", "anchors": ["include/bignum/impl/bn_type_impl.h: constructors, operator=, resize, push_front, push_back, push, operator+=, operator-=, operator*=, operator/=, operator+, operator-, operator*, operator/"]}
{"id": "C113", "title": "Products on a platform with IEEE 754 doubles", "statement": "On a platform whose double is the binary64 format of IEEE 754 with rounding to nearest, ties to even, and whose sine and cosine are finite and within 4/2^53 for arguments up to 4, products of the base-2, 8, 10 and 16 types are exact up to the stated lengths, programs of the base-10 type compute what the mathematics says, transforms have the stated error, and products of the three native digit types are not always right. Nothing else about the floating-point unit or the mathematical library matters.", "quantifier": "all numbers and programs within the stated lengths, all lists of finite doubles of 2^k <= 2^40 points, all accurate mathematical libraries; enough memory", "why_tests_cant": "a test runs with one library on a few numbers; the statement is about every library and every number", "anchors": ["include/bignum/impl/bn_type_impl.h: operator*=, operator*", "include/bignum/impl/bn_multiplication_impl.h", "include/bignum/impl/fourier_impl.h"]}
{"id": "C114", "title": "Sums, differences and comparisons take time linear in the length", "statement": "A comparison looks at no more digits than the shorter operand has; += and -= take at most five steps per digit of the longer operand and one more, whatever happens; adding numbers of the same sign takes exactly as many steps as the sum has digits; the binary operators take the length of the left operand more for the copy.", "quantifier": "all numbers and objects, all digit types, builds and allocators, own operands included", "why_tests_cant": "a test measures a few lengths on one machine and cannot exclude a slow case", "anchors": ["include/bignum/impl/bn_addition_impl.h: abs_val_add", "include/bignum/impl/bn_subtraction_impl.h: abs_val_sub", "include/bignum/impl/bn_compare_impl.h", "include/bignum/impl/bn_type_impl.h: operator+=, operator-=, comparison operators"]}
{"id": "C115", "title": "Products take time n log n", "statement": "*= takes at most (2k+9)2^k steps, where 2^k is the least power of two that is not below the sum of the lengths, and at least (2k+8)2^k if it returns: the time depends on nothing but the lengths.", "quantifier": "all operands of at most 2^32 digits together, all digit types, builds, allocators and floating-point units", "why_tests_cant": "a test measures a few lengths; a bound on all inputs needs a proof", "anchors": ["include/bignum/impl/bn_multiplication_impl.h", "include/bignum/impl/fourier_impl.h", "include/bignum/impl/bn_type_impl.h: operator*="]}
{"id": "C116", "title": "Quotients take cubic time", "statement": "/= subtracts as often as the quotient has ones to base two and doubles a number as often as the sum of their places; this is at most cubic in the lengths, and base-2 quotients of 2k by k+1 digits exist for every k that take more than k^3/2 steps. A caller that feeds attacker-chosen lengths to /= must reckon with this.", "quantifier": "all custom bases, all numbers, builds and allocators", "why_tests_cant": "the worst case is a particular family of operands of growing length; a test of random operands at one length shows nothing of the growth", "anchors": ["include/bignum/impl/bn_division_impl.h: abs_val_div", "include/bignum/impl/bn_type_impl.h: operator/="]}
{"id": "C117", "title": "Lengths the schoolbook product can take", "statement": "mul_naive of sequences of p and q digits returns the exact product for all digits if and only if q = 0, or p and q are below 2^32 and p + q is at most 2^32 + 1. With a longer factor it never returns, and with p + q beyond 2^32 + 1 it puts digits into the wrong place (B^(p-1) times B^(q-1) comes out as B^(p+q-2-2^32)).", "quantifier": "all lengths, all custom bases with N*N <= 2^w, every allocator that grants the result", "why_tests_cant": "operands of 2^32 digits do not fit into a test", "anchors": ["include/bignum/impl/bn_multiplication_impl.h: mul_naive"]}
{"id": "C118", "title": "Threads that share no written number do not disturb each other", "statement": "If no thread writes a number that another thread uses (several may read the same number), then in every interleaving, also of overlapping statements, each thread computes what it computes alone, the program fails exactly if one of the threads fails alone, and all interleavings end with the same numbers. Without this condition an update can be lost: two threads that both execute x += y on shared x may add y only once.", "quantifier": "all programs of any number of threads with loops and branches, all schedules, all digit types and allocators", "why_tests_cant": "a test runs a few schedules of a few programs; races show up in schedules that are hardly ever taken", "anchors": ["include/bignum/impl/bn_type_impl.h: all member functions and operators (no mutable static data)"]}
{"id": "C119", "title": "Digits beyond the base", "statement": "push, resize, operator[] and the constructors accept every value of the digit type. += of two numbers of one sign with such digits always returns digits below the base and never more than the sum; it returns the sum exactly if every column total stays below twice the base. So x += 0 brings digits of at most twice the largest digit into range and keeps the value, while larger digits lose value.", "quantifier": "all custom bases, all digit values of the type, all lengths, own operand included, every build; enough memory", "why_tests_cant": "the criterion ranges over all columns of all numbers", "anchors": ["include/bignum/impl/bn_addition_impl.h: abs_val_add", "include/bignum/impl/bn_type_impl.h: operator+=, push_back, resize, operator[]"]}
{"id": "C120", "title": "Swapping, reversing and rotating numbers", "statement": "std::swap exchanges two numbers whatever they are, also NaN, infinities and numbers with leading zeros, and swapping an object with itself changes nothing, although a number moved into itself loses a minus sign, NaN or infinity. Any sequence of swaps rearranges the numbers, losing and doubling none; std::reverse and std::rotate put every number where they should.", "quantifier": "all numbers, all ranges of objects, all sequences of swaps, whatever a vector moved into itself holds", "why_tests_cant": "the contents of a vector moved into itself are unspecified, a test sees what one standard library does; all sequences and ranges", "anchors": ["include/bignum/impl/bn_type_impl.h: Bignum(Bignum&&), operator=(Bignum&&)"]}
{"id": "C121", "title": "How often an operator asks for memory", "statement": "For any two operands there is a list of requests for memory such that the operator ends as with unlimited memory if all of them are granted and throws a std::exception, leaving an infinity, if any of them is refused; apart from these nothing that the allocator does matters. For operands on which the operator would not throw anyway the list is unique. A product of numbers of p and q digits makes 6*2^k-1 requests, where 2^k is the least power of two not below p+q; a sum of numbers of the same sign makes one for each digit that it is longer than its left operand; a difference, and a sum of numbers of opposite signs, at most one. A division with a custom base whose divisor b has magnitude 2 or more and whose dividend is larger makes, writing len(m) for the number of digits of m and Q for the quotient, 1 + len(Q) - len(2^log2(Q)) requests, and 2 + i + len(2^(i+1)*b) - len(b) + len(2^i) more for every one in the binary numeral of Q, at place i; with a dividend that is not larger it makes none, or one if a digit of the dividend exceeds the digit of an equally long divisor at the same place; a division by 1, -1 or 0 makes none.", "quantifier": "all operators, operands, limits, builds, all allocators that may answer each request differently", "why_tests_cant": "every request would have to be made to fail on its own, for all operands", "anchors": ["include/bignum/impl/bn_type_impl.h: operator+=, -=, *=, /=", "include/bignum/impl/bn_addition_impl.h: abs_val_add", "include/bignum/impl/bn_subtraction_impl.h: abs_val_sub", "include/bignum/impl/bn_multiplication_impl.h", "include/bignum/impl/bn_division_impl.h: abs_val_div", "include/bignum/impl/fourier_impl.h"]}
{"id": "C122", "title": "How long factors may be in base 10 and base 16", "statement": "All products of p-digit by q-digit numbers are exact when p+q <= 2^25 or min(p,q)*p*q <= 2^70 (base 10), p+q <= 2^24 or min(p,q)*p*q <= 2^66 (base 16); in particular a number of any length up to 2^32-1 digits times a short number. The product of two numbers with only maximal digits is undefined behaviour (conversion of an out-of-range double) as soon as both have 47722000 digits (base 10) or 17895800 digits (base 16).", "quantifier": "all pairs of lengths with 1 <= p+q <= 2^32, all operands of these lengths, all IEEE 754 platforms; enough memory", "why_tests_cant": "factors of tens of millions of digits, of which no test can try all, and for which the rounding errors exceed one half", "anchors": ["include/bignum/impl/bn_multiplication_impl.h", "include/bignum/impl/fourier_impl.h"]}
{"id": "C123", "title": "Which bases a digit type can carry", "statement": "With BNIntType digits of w bits in base b (2 <= b <= 2^w), sums of numbers with digits are all right exactly when 2b <= 2^w, and so are differences of numbers of the same sign; with w <= 32 and 2b <= 2^w, products of one-digit numbers are all right exactly when b*b <= 2^w. For any larger base the sum of the largest digit with itself, or the base minus its largest digit, is silently wrong.", "quantifier": "all w in {8,16,32,64} (products: 8, 16, 32), all bases, all operands (for products: one digit each), all IEEE 754 platforms; release builds, enough memory", "why_tests_cant": "the base is a template parameter: a test instantiates a few bases and a few operands, the boundary between the right and the wrong ones is a statement about all of them", "anchors": ["include/bignum/impl/bn_addition_impl.h: abs_val_add", "include/bignum/impl/bn_subtraction_impl.h: abs_val_sub", "include/bignum/impl/bn_multiplication_impl.h", "include/bignum/impl/bn_int_type_impl.h"]}
{"id": "C124", "title": "Output to a device that runs full", "statement": "When characters may be refused (full disk, closed pipe, fixed buffer), os << a << b ... leaves on the device the texts of the numbers in order up to the first refused character and nothing after it; the stream is good() afterwards exactly when nothing is missing; with exceptions enabled the output throws exactly when something is missing; a stream that had already failed receives nothing; whatever happens, the width is back at 0 after the first number.", "quantifier": "all devices (any rule for refusing a character, depending on everything written before), all streams and formatting flags, all sequences of numbers in any state", "why_tests_cant": "the set of failure points is unbounded and depends on the device: a test makes the output fail at one or two places", "anchors": ["include/bignum/impl/bn_type_impl.h"]}
{"id": "C125", "title": "Numbers as keys of std::set and std::map", "statement": "In a std::set of numbers exactly the inserted keys are found and iteration is in ascending order without repetitions, whatever the order of insertion and however the tree is balanced; std::binary_search in a sorted vector answers whether the number is there.", "quantifier": "all sets of numbers, all orders of insertion and all ways of rebalancing, all sorted vectors", "why_tests_cant": "all orders of insertion and tree shapes; the failures need particular pairs of keys", "anchors": ["include/bignum/impl/bn_type_impl.h: operator<, operator<=", "include/bignum/impl/bn_compare_impl.h"]}
{"id": "C126", "title": "Which pairs of built-in digit types work", "statement": "With BNLimitsType<uintW_t, uintD_t> for any two of the built-in unsigned types, sums of numbers with digits are all right exactly when D > W, and so are differences of numbers of the same sign; with D <= W carries and borrows are silently dropped. Bytes with a 32-bit double type multiply exactly for all operands of two lengths precisely when the shorter one has at most 65793 bytes (lengths adding up to at most 2^18), bytes with a 64-bit double type for all lengths adding up to at most 2^18, and 16-bit digits with a 64-bit double type for up to 256 digits in all.", "quantifier": "all pairs of widths in {8,16,32,64}, all operands, lengths as stated for products, all IEEE 754 platforms; release builds, enough memory", "why_tests_cant": "the digit types are template parameters; the library's tests instantiate three pairs, and the statement is about all operands", "anchors": ["include/bignum/impl/bn_limits_impl.h: BNLimitsType", "include/bignum/impl/bn_addition_impl.h: abs_val_add", "include/bignum/impl/bn_subtraction_impl.h: abs_val_sub", "include/bignum/impl/bn_multiplication_impl.h"]}
{"id": "C127", "title": "Programs with conditions and loops", "statement": "A program made of constructions, copies, assignments, the four operators, if and while with the six comparison operators computes over Bignum objects what it computes over integer variables, as long as the integer program only comes to statements and conditions of the stated kinds: it never has undefined behaviour, its objects always hold the values of the variables at the same place of the program, it ends exactly if the integer program ends and otherwise runs for ever. A comparison of numbers that are not both zero is right exactly in the stated cases: ==, != always; >= and <= always unless both numbers are non-positive; > and < unless the numbers are equally long and digits of both are greater than the other's (or the numbers are equal and negative).", "quantifier": "all programs, all numbers of steps, all stores, bases 2, 8, 10 and 16 (conditions: all bases)", "why_tests_cant": "a statement about every program and about runs of any length, also endless ones", "anchors": ["include/bignum/impl/bn_type_impl.h: operator==, operator!=, operator>, operator>=, operator<, operator<=", "include/bignum/impl/bn_addition_impl.h: abs_val_add", "include/bignum/impl/bn_subtraction_impl.h: abs_val_sub", "include/bignum/impl/bn_multiplication_impl.h", "include/bignum/impl/bn_division_impl.h: abs_val_div"]}
{"id": "C128", "title": "Vectors of numbers", "statement": "push_back, insert, erase, reserve and pop_back on a std::vector of numbers do to the numbers what they do to a sequence, or throw bad_alloc and leave every number in place as it was; after any history of calls the vector holds what a sequence holds after the calls that did not throw. A call that makes the vector grow asks for the digits of every number in it (the move constructor is not noexcept, so the numbers are copied) and succeeds exactly if all of these and the new storage are granted; appending n numbers to an empty vector copies at least 2n - 1 and at most 3n numbers.", "quantifier": "all vectors, all numbers including NaN, infinities and numbers with leading zeros, all places, all growth policies (2n - 1 and 3n: doubling), all answers of the allocator to every single request, all histories of calls", "why_tests_cant": "allocation failures and histories of calls are unbounded", "anchors": ["include/bignum/impl/bn_type_impl.h: copy constructor, move constructor, move assignment; include/bignum/bn_type.h:135 (no noexcept)"]}
{"id": "C129", "title": "A number moved into a vector is not lost", "statement": "v.push_back(std::move(x)) either appends the number or throws and leaves the number in x.", "quantifier": "all vectors, all numbers, all allocator behaviours", "why_tests_cant": "allocation failures cannot be injected exhaustively", "anchors": ["include/bignum/impl/bn_type_impl.h: Bignum(Bignum&&); include/bignum/bn_type.h:135 (no noexcept)"]}
{"id": "C130", "title": "Fused multiply-add does not change products", "statement": "Compilers may evaluate the sums of products in std::complex multiplication with fused operations (GCC does so by default where the processor has them), which changes the intermediate values. Products of the preset types, and programs whose products stay within the stated lengths, nevertheless end identically whatever is fused where.", "quantifier": "all choices of the compiler, all accurate mathematical libraries, all well-formed operands within the stated lengths, all programs, allocators and builds", "why_tests_cant": "one build makes one choice; every test runs one build", "anchors": ["include/bignum/impl/fourier_impl.h: fft_complex, convolute_fft", "include/bignum/impl/bn_multiplication_impl.h"]}
{"id": "C131", "title": "Same products on 32-bit platforms", "statement": "A build for a platform whose size_t has 32 bits (the library keeps its carry and its index arithmetic in that type) gives the same products as a 64-bit build: same digits, same sign, same error if there is one, for all shipped digit types; in particular products of the small-base presets are exact up to the same lengths.", "quantifier": "all operands with at most 2^31 digits together (more do not fit into 32-bit memory), whatever their digits and signs, all floating-point arithmetics, allocators and builds", "why_tests_cant": "tests run on one platform; the widths matter only for rare large columns and carries", "anchors": ["include/bignum/impl/fourier_impl.h: nextPow2, create_fft_table, convolute_fft", "include/bignum/impl/bn_multiplication_impl.h"]}
{"id": "C132", "title": "Output does not depend on the locale", "statement": "Numbers with 8-bit digits and numbers whose base is not above the radix of the stream print the same text in every locale (whatever digit grouping and separator it asks for), with every combination of formatting flags; text written on one machine is the text written on every other. In every locale the stream keeps its formatting, except the width, which becomes 0.", "quantifier": "all locales, all stream states, all numbers of such types, also with leading zeros, infinities and NaN", "why_tests_cant": "tests run in one locale", "anchors": ["include/bignum/impl/bn_type_impl.h: operator<<"]}
{"id": "C133", "title": "Digit grouping follows the locale", "statement": "On a stream whose locale groups digits a decimal number prints with the separators of the locale, as a built-in integer of the same value does.", "quantifier": "all locales with grouping, all well-formed decimal numbers", "why_tests_cant": "grouping is a property of the installed locale; tests run in the classic one", "anchors": ["include/bignum/impl/bn_type_impl.h: operator<<"]}
{"id": "C134", "title": "Excess precision does not change products", "statement": "On machines that keep intermediate results with 64 bits (x87), where the compiler decides at every single operation whether a result is kept, rounded, or rounded twice, products of decimal, octal, binary and hexadecimal numbers have the digits of the integers' product, and such products and whole programs end exactly as they do where every result is a double, although the floating-point results in between differ.", "quantifier": "all choices of rounding and of nearest numbers at ties at every operation, all well-formed numbers up to the lengths the type is exact for, all programs with such products, all builds and allocators", "why_tests_cant": "the choices are made by the compiler; tests see one compiler on one machine", "anchors": ["include/bignum/impl/fourier_impl.h: fft_complex, convolute_fft", "include/bignum/impl/bn_multiplication_impl.h: operator*="]}
{"id": "C135", "title": "Rounding error of the Fourier transform in single precision", "statement": "fft_complex<float> on 2^k points has a root-mean-square error of at most 31*k units of roundoff times the size of the data, and fft_complex<float> followed by ifft_complex<float> returns the data up to 63*k+3 units of roundoff times its size, where a unit of roundoff is 2^-24 and a thousandth of it; no overflow occurs for data below a stated bound. That the angles are computed in double (the literal -2.0 makes them so) and then stored as float does not spoil this.", "quantifier": "all k <= 24 and all lists of 2^k finite numbers whose energy is below the bound; all single-precision arithmetics that obey the rounding laws, among them IEEE binary32 with every compiler's choice of fused operations", "why_tests_cant": "a test transforms a few lists; the bound is about all lists of all sizes", "anchors": ["include/bignum/impl/fourier_impl.h: fft_complex, ifft_complex"]}
{"id": "C136", "title": "Convolution in single precision", "statement": "create_fft_table, convolute_fft and ifft_complex with float give every column sum of two lists of decimal digits to within less than one half, so that rounding gives it exactly, for lists of up to 43 digits each, and of binary digits for up to 512 digits each. For 16-bit digits no length is possible: no coefficient that a convolution of any lists yields is within less than 1 of the product of the digits 65535 and 65535.", "quantifier": "all lists of digits up to the lengths, all single-precision arithmetics that obey the rounding laws, among them IEEE binary32 with every compiler's choice of fused operations (16-bit digits: all lists of up to 2^32 digits together, any sine and cosine)", "why_tests_cant": "all digit lists and all libraries", "anchors": ["include/bignum/impl/fourier_impl.h: create_fft_table, convolute_fft, ifft_complex"]}
{"id": "C137", "title": "Transforms in long double are more accurate than in double", "statement": "fft_complex<long double> satisfies the error bound of the double transform with the unit of roundoff of long double (2^-64 and a thousandth of it) in place of that of double.", "quantifier": "all k <= 40 and all lists of 2^k numbers, all mathematical libraries accurate to 2^-64", "why_tests_cant": "an error of 2^-54 is not noticed by a test that compares with a tolerance, and not where long double is double", "anchors": ["include/bignum/impl/fourier_impl.h: fft_complex"]}
{"id": "C138", "title": "Products do not depend on the rounding mode", "statement": "A program may run with any rounding mode of the floating-point unit (fesetround: to nearest, upwards, downwards, towards zero), also one that changes in the middle of a multiplication, as when a signal handler or a library leaves it changed. Products of decimal, hexadecimal, octal and binary numbers have the digits of the integers' product all the same, and such products and whole programs end exactly as with rounding to nearest.", "quantifier": "all choices of a rounding mode for every single operation (and of keeping 64 bits or not), all well-formed numbers with 2^24 digits together in base 10, 2^23 in base 16, 2341 in base 8, 257 in base 2, all programs with such products, all builds and allocators", "why_tests_cant": "tests run in the default mode; a choice at every operation cannot be enumerated", "anchors": ["include/bignum/impl/fourier_impl.h: fft_complex, convolute_fft", "include/bignum/impl/bn_multiplication_impl.h: operator*="]}
{"id": "C139", "title": "Products, quotients and gcd by addition and subtraction only are always right", "statement": "A caller who avoids operator* and operator/ gets exact results with every digit type: multiplying by the schoolbook rule (push_front(0) for the shift, doubling and adding for the digit) gives the exact product of any two finite numbers, leading zeros allowed; dividing by doubling the divisor while dividend >= doubled divisor, then subtracting, gives quotient and remainder truncated towards zero; Euclid's algorithm with that remainder ends with the greatest common divisor, also of two equal numbers. These client loops use only +, -, >=, push_front, subscripts, setDescriptor and copies.", "quantifier": "all finite operands of any length, all digit types that ship and all custom ones (also those for which operator* or operator/ is wrong); products in debug and release builds, quotients in release builds; enough memory", "why_tests_cant": "the loops run on numbers of any length in every digit type; a test sees finitely many", "anchors": ["include/bignum/impl/bn_type_impl.h: operator+, operator-, operator>=, push_front, operator[], setDescriptor"]}
{"id": "C140", "title": "Statements can be repeated until memory suffices", "statement": "A statement x = y op z, x = T(...), a move, or a member function call (resize, push, pop, subscript assignment, clear, setDescriptor) is all or nothing: whichever requests for memory are refused during it, every object is as before or as with unlimited memory. So a program of such statements that goes on after exceptions ends as the statements that did not throw would end with unlimited memory, and a program that repeats each statement until it does not throw computes what it computes with unlimited memory. A compound assignment x op= y cannot be repeated: after an attempt that threw, the next one returns normally and leaves zero, whatever x and y were.", "quantifier": "all such statements and programs, all stores, digit types, both builds, all allocators with an answer of their own for every request", "why_tests_cant": "every pattern of refusals at every attempt", "anchors": ["include/bignum/impl/bn_type_impl.h: operator+, operator-, operator*, operator/, operator+=, operator-=, operator*=, operator/=, resize, push, push_front, push_back"]}
{"id": "C141", "title": "Rounding quotients with the usual formulas", "statement": "(a + b - 1) / b is the least integer not below a/b, (2a + b) / (2b) is the integer nearest to a/b, and a / 2 is half of a rounded down.", "quantifier": "all positive numbers without leading zeros, all custom bases; release builds, enough memory", "why_tests_cant": "all operand pairs; the exceptions are a line in the plane", "anchors": ["include/bignum/impl/bn_type_impl.h: operator/, operator+, operator-", "include/bignum/impl/bn_division_impl.h: abs_val_div"]}
{"id": "C142", "title": "Rounding error of the Fourier transform in every rounding mode", "statement": "Whatever the rounding mode is, and if it changes from operation to operation, fft_complex on 2^k points has a root-mean-square error of at most 31*k times 2^-52 (and a thousandth of it) times the size of the data, and fft_complex followed by ifft_complex returns the data up to (63*k+3) times 2^-52 times its size: at most twice the bounds that hold when rounding to nearest.", "quantifier": "all k <= 32, all lists of 2^k numbers whose energy is below the stated bound, all choices of a rounding mode (and of keeping 64 bits or not) at every operation", "why_tests_cant": "tests run in the default mode on a few lists", "anchors": ["include/bignum/impl/fourier_impl.h: fft_complex, ifft_complex"]}
{"id": "C143", "title": "A number reuses its storage", "statement": "Once a number has had n digits, sums, differences, resize, push and subscript assignment with results of up to n digits ask for no memory and leave references to its digits valid: x.resize(n); x.clear(); is a way to reserve room, after which calculations with up to n digits in x cannot fail.", "quantifier": "all histories of calls on a number (+=, -=, resize, clear, push, push_back, pop, pop_back, subscript assignment, setDescriptor) with results of up to n digits, all operands, digit types and builds, all growth policies of the vector, all allocators", "why_tests_cant": "every history of calls with every pattern of refused memory; references that became invalid often still work in a test", "anchors": ["include/bignum/impl/bn_type_impl.h: operator+=, operator-=, resize, clear, push, push_back", "include/bignum/impl/bn_addition_impl.h: abs_val_add", "include/bignum/impl/bn_subtraction_impl.h: abs_val_sub"]}
{"id": "C144", "title": "Undefined behaviour does not depend on the digits", "statement": "Whatever digits two objects hold (also digits beyond the base and leading zeros, as push, resize and subscripts can leave them) and whatever their descriptors are, x += y is undefined exactly when x and y are numbers of opposite signs without any digit, x -= y exactly when x is a number and neither has a digit, and x /= y never with a custom base: no index leaves a container, no digit operation overflows or divides by zero. Whatever such a call leaves in x, also after an exception, are digits the type can hold.", "quantifier": "all objects, all digits of the type, all descriptors, own operand included, all allocators, debug and release builds; all digit types that ship and all custom ones (quotients: custom bases)", "why_tests_cant": "tests use numbers that are proper; out-of-range accesses seldom show in a test", "anchors": ["include/bignum/impl/bn_type_impl.h: operator+=, operator-=, operator/=", "include/bignum/impl/bn_addition_impl.h: abs_val_add", "include/bignum/impl/bn_subtraction_impl.h: abs_val_sub", "include/bignum/impl/bn_division_impl.h: abs_val_div"]}
{"id": "C145", "title": "Multiplying brings digits beyond the base into range", "statement": "A number may hold digits beyond its base, as push, resize and subscripts can leave them. x *= y with such digits returns proper digits without leading zeros; they stand for the product modulo base^S, where S is the number of digits of x and y together rounded up to a power of two. So x *= 1 carries the digits of x over, and keeps the value of x exactly if x has room for it: the value is below base^(n+1) for n digits (put zeros on top if not). Where a column of the schoolbook product with its carry exceeds the double-width type, the call is undefined instead.", "quantifier": "all numbers with digits up to 255 and 2^18 digits together (also own operand), all custom bases; x *= 1 for digits up to 9999 and below half the range of the type, up to 2^14 digits; other limits by the general theorem; enough memory, IEEE 754 doubles", "why_tests_cant": "tests multiply proper numbers; that high digits are dropped shows only for some lengths", "anchors": ["include/bignum/impl/bn_type_impl.h: operator*=, push, resize, operator[]", "include/bignum/impl/bn_multiplication_impl.h", "include/bignum/impl/fourier_impl.h: create_fft_table"]}
{"id": "C146", "title": "Modular inverses by the extended Euclidean algorithm", "statement": "The extended Euclidean algorithm written with the operators, with the coefficients kept positive and their sign in a flag (q = r0/r1; r = r0 - q*r1; s = s0 + q*s1; at the end s0 or m - s0), returns the inverse of a modulo m, the only one between 0 and m, if a and m have no common divisor, and otherwise a number x below m with a*x congruent to their greatest common divisor. With signed coefficients (s = s0 - q*s1), as in textbooks, it does not: it returns 0 for the inverse of 3 modulo 5.", "quantifier": "all 0 < a < m of the base-2, 8, 10 and 16 types up to the stated lengths; release builds, enough memory, IEEE 754 doubles", "why_tests_cant": "all pairs of any length; small inverses with one or two divisions are right in both versions", "anchors": ["include/bignum/impl/bn_type_impl.h: operator/, operator*, operator-, operator+, operator!=", "include/bignum/impl/bn_division_impl.h: abs_val_div", "include/bignum/impl/bn_subtraction_impl.h: abs_val_sub"]}
{"id": "C147", "title": "Expanding a fraction digit by digit", "statement": "The loop for (; k && r != Bignum(); --k) { r = r * c; d = r / b; r = r - d * b; } yields the first k digits d of a/b in base c: digits from 0 to c-1 that together are the integer part of c^k * a / b, and it stops early only when the rest of the expansion is zero.", "quantifier": "all 0 < a < b and c >= 2 of the base-2, 8, 10 and 16 types up to the stated lengths, all k; release builds, enough memory, IEEE 754 doubles", "why_tests_cant": "all fractions and all numbers of digits; most fractions come out right", "anchors": ["include/bignum/impl/bn_type_impl.h: operator*, operator/, operator-, operator!=", "include/bignum/impl/bn_division_impl.h: abs_val_div"]}
{"id": "C148", "title": "An order of one's own by sizes, subscripts and signs", "statement": "A comparison that callers write themselves (different isNegative(): the negative one is less; different size(): the longer one is greater in magnitude; otherwise the first differing subscript from the top decides; the result turned round for negative numbers) is the order of the integers for numbers of both signs, unlike the comparison operators. With it std::set holds exactly the inserted keys in ascending order, sorting sorts, and binary search finds what is there. A zero with a minus sign is the one exception: it comes before zero.", "quantifier": "all finite numbers without leading zeros that are not a zero with a minus sign, all digit types, both builds, any allocator (no memory is requested); all sets, orders of insertion, ways of rebalancing, and vectors", "why_tests_cant": "all pairs of numbers of any length; the operators themselves go wrong only for particular digits", "anchors": ["include/bignum/impl/bn_type_impl.h: size, operator[], isNegative"]}
{"id": "C149", "title": "Numbers as keys of std::unordered_set", "statement": "Whatever hash function is used (any function of the object), however many buckets there are and whenever the table grows, after any history of insert and erase an unordered_set of numbers holds exactly the keys of the mathematical set, each once, and find answers exactly for these; also for NaN (which equals itself), infinities and numbers with leading zeros. For finite numbers without leading zeros and without a minus sign on zero a number is found exactly if its value is there. A zero that a division leaves is a different key from Bignum().", "quantifier": "all hash functions, numbers of buckets, histories of insert, erase and rehash, with and without stored hash codes, all numbers in any state", "why_tests_cant": "histories, hash functions and growth are unbounded", "anchors": ["include/bignum/impl/bn_type_impl.h: operator=="]}
{"id": "C150", "title": "Conversions from and to built-in integers", "statement": "A long long written into a number by its remainders modulo the base (push_back of n % BASE, setDescriptor for the sign, also for the least long long) has that value, no leading zeros and no minus sign on zero. A number read back by Horner's rule in 64-bit arithmetic gives its value modulo 2^64, hence the value exactly if a long long can hold it, and never undefined behaviour. There and back is the identity; converting back and comparing with == tells exactly whether the value fitted.", "quantifier": "all long long values, all finite numbers of any length (to long long: also with leading zeros or digits beyond the base), all digit types that ship and all custom ones; enough memory", "why_tests_cant": "2^64 values and numbers of all lengths in every digit type", "anchors": ["include/bignum/impl/bn_type_impl.h: push_back, setDescriptor, size, operator[], isNegative, operator==", "include/bignum/impl/bn_limits_impl.h: bn_max_limit"]}
{"id": "C151", "title": "An exact integer class on top of the library", "statement": "Callers who go round the faults get an exact integer class of any size for every digit type: a + b stripped of leading zeros (a zero replaced by Bignum()), a - b as a + (-b), products and quotients by addition only, a test for a zero divisor before dividing, an order of one's own, operator== for equality, literals converted from long long. Programs of assignments, conditions and loops over this class compute exactly what they compute over the mathematical integers (C++ division), throw exactly when these divide by zero, end exactly when these end, and never have undefined behaviour. In debug builds and where memory is short they throw instead, but never return anything else.", "quantifier": "all programs (assignments, sequences, conditions, loops, literals of type long long), all values of all variables, all digit types that ship and all custom ones; without an exception in release builds with enough memory, otherwise in every build with every allocator", "why_tests_cant": "programs, loops and values are unbounded", "anchors": ["include/bignum/impl/bn_type_impl.h: operator+, operator-=, operator>=, operator==, push_front, pop_back, size, operator[], setDescriptor, isNegative, clear", "include/bignum/impl/bn_addition_impl.h: abs_val_add", "include/bignum/impl/bn_subtraction_impl.h: abs_val_sub", "include/bignum/impl/bn_compare_impl.h"]}
{"id": "C152", "title": "IEEE doubles in every rounding mode", "statement": "With double as IEEE 754 binary64 (bounded exponents, subnormal numbers, infinities) and each rounding mode doing what the standard says (also for overflow and exact zeros), whatever mode is set at every operation and whichever products the compiler fuses into an addition: products of decimal, hexadecimal, octal and binary numbers have the digits of the integers' product, programs end as with rounding to nearest, and the transforms stay finite and within twice the error bounds of rounding to nearest.", "quantifier": "all choices of a mode and of a contraction depending on how the operands were computed, all accurate mathematical libraries (one for each mode), all well-formed numbers with 2^24 digits together in base 10, 2^23 in base 16, 2341 in base 8, 257 in base 2, all programs with such products, all builds and allocators; transforms of all lists of 2^k finite points, k <= 32, with energy below the stated bound", "why_tests_cant": "tests run in one mode with one compiler", "anchors": ["include/bignum/impl/bn_type_impl.h: operator*, operator*=", "include/bignum/impl/bn_multiplication_impl.h", "include/bignum/impl/fourier_impl.h: fft_complex, ifft_complex"]}
{"id": "C153", "title": "Arithmetic that changes between any two operations", "statement": "The rounding mode, the contraction of sums of products and the results of the mathematical library may change from each floating-point operation to the next, even between the two evaluations of an expression that the code writes twice. Products of decimal, hexadecimal, octal and binary numbers still have the digits of the integers' product, programs end as with rounding to nearest, and the transforms stay finite and within twice the error bounds of rounding to nearest. Whatever the arithmetic does at whatever moment, even without any law, a product is well formed with the sign of the product, or fails for want of memory, or is an undefined conversion of a double to an integer; no index leaves its array.", "quantifier": "all sequences of arithmetics with errors of at most 2^-52 at each operation (in particular all sequences of IEEE rounding modes, contractions and accurate libraries), all well-formed numbers with 2^24 digits together in base 10, 2^23 in base 16, 2341 in base 8, 257 in base 2, all programs with such products, all builds and allocators; transforms of all lists of 2^k finite points, k <= 32, with energy below the stated bound; the last claim: all sequences of arithmetics, all digit types and digits, all lengths up to 2^32", "why_tests_cant": "the modes and results at millions of operations vary independently", "anchors": ["include/bignum/impl/bn_type_impl.h: operator*, operator*=", "include/bignum/impl/bn_multiplication_impl.h", "include/bignum/impl/fourier_impl.h: fft_complex, ifft_complex"]}
{"id": "C154", "title": "Floating-point operations of a product", "statement": "A transform of 2^k points makes exactly 15/2 k 2^k floating-point operations and always returns, the inverse transform 4 * 2^k + 1 more; a product of numbers with d digits together makes exactly N (15 log2 N + 21) + 1, where N is the least power of two that is at least d, hence at most 2 d (15 log2 d + 36) + 1. Neither the digits nor the results of the arithmetic have any influence. A difference or sum of two products counts as one operation.", "quantifier": "all arithmetics, also such as change from one operation to the next; all digit types, digits, allocators and builds; d from 1 to 2^32, transforms of every length 2^k", "why_tests_cant": "all lengths, all digits and all arithmetics", "anchors": ["include/bignum/impl/bn_type_impl.h: operator*, operator*=", "include/bignum/impl/bn_multiplication_impl.h", "include/bignum/impl/fourier_impl.h: fft_complex, ifft_complex"]}
{"id": "C155", "title": "Contraction and excess precision that differ between equal computations", "statement": "Under rounding to nearest the compiler may contract a sum of products or not, and keep an intermediate result in a register of 64 bits or store it in 53, independently each time an expression is evaluated, even where the code writes the same expression twice; the mathematical library may return another accurate result at each call. Products of the preset types are the integers' products for the same lengths as with an arithmetic that never changes, programs end alike, and the transforms stay finite within the same error bounds.", "quantifier": "all sequences of arithmetics with errors of at most 2^-53 (and a thousandth of it) at each operation, in particular all sequences of contractions, libraries and ways to keep results; all well-formed numbers with 2^25 digits together in base 10, 2^24 in base 16, 2341 in base 8, 257 in base 2, all programs with such products, all builds and allocators; transforms of all lists of 2^k finite points, k <= 32, with energy below the stated bound", "why_tests_cant": "the choices of a compiler at millions of operations vary independently", "anchors": ["include/bignum/impl/bn_type_impl.h: operator*, operator*=", "include/bignum/impl/bn_multiplication_impl.h", "include/bignum/impl/fourier_impl.h: fft_complex, ifft_complex"]}
{"id": "C156", "title": "Memory that an operator holds at once", "statement": "Whether it returns or throws, an operator with assignment leaves nothing allocated except the storage of the number it assigns to, and a binary operator that throws leaves the memory as it was. With little free memory an operator ends exactly as with unlimited memory or throws a std::exception that leaves an infinity. How much it needs at once: a product of numbers with p and q digits exactly 4*2^k - 1 complex numbers, where 2^k is the least power of two not below p + q, so that eight for each digit suffice (with * also the copy of the left operand); a difference, or a sum of opposite signs, no more than the longer operand; a sum of the same sign two vectors of the capacity that numbers of its length may grow to; a quotient five.", "quantifier": "all amounts of free memory, sizes of a digit and of a complex number (a digit no larger than two of them for the product), growth policies of the vector, builds, finite or infinite operands (outcome and return), well-formed operands in a custom base with a divisor that has digits (quotient), digits in range (sum), at most 2^32 digits together (product), aliased operands included", "why_tests_cant": "the amount of free memory at each moment cannot be enumerated, and a leak or a double allocation shows only when memory is nearly exhausted", "anchors": ["include/bignum/impl/bn_type_impl.h: operator+=, operator-=, operator*=, operator/=, operator+, operator-, operator*, operator/", "include/bignum/impl/bn_addition_impl.h: abs_val_add", "include/bignum/impl/bn_subtraction_impl.h: abs_val_sub", "include/bignum/impl/bn_division_impl.h: abs_val_div", "include/bignum/impl/bn_multiplication_impl.h", "include/bignum/impl/fourier_impl.h"]}
{"id": "C157", "title": "Programs on a machine with finite memory", "statement": "Take a client program of any length on a machine with so many bytes, where numbers keep their storage from statement to statement and exceptions are caught. The storage of every number always holds its digits. What is free and what the numbers hold is together always the same, whatever throws. The objects after the program are those of a run in which every statement finds an allocator that grants everything or one that refuses everything, so every property that holds for all allocators holds on the machine; in particular digits stay below the base and without leading zeros. From some amount of memory on the program does exactly what it does with unlimited memory, and so computes with integers what it is meant to.", "quantifier": "all programs of constructors, copies, moves, edits, compound and binary operators, all sizes of digits and complex numbers, growth policies, amounts of free memory, capacities that hold the digits at the beginning, both builds", "why_tests_cant": "memory runs out at moments that depend on the whole history of a program, and a lost byte shows only after many statements", "anchors": ["include/bignum/impl/bn_type_impl.h: constructors, operator=, resize, push, push_front, push_back, operator+=, operator-=, operator*=, operator/=, operator+, operator-, operator*, operator/", "include/bignum/impl/bn_addition_impl.h: abs_val_add", "include/bignum/impl/bn_subtraction_impl.h: abs_val_sub", "include/bignum/impl/bn_division_impl.h: abs_val_div", "include/bignum/impl/bn_multiplication_impl.h", "include/bignum/impl/fourier_impl.h"]}
{"id": "C158", "title": "Memory that is enough for programs of any length", "statement": "Take a client program over N numbers that, read as a program over integers, keeps every variable below D digits after every statement and stays within the conditions under which the operators are right. If the vectors of the machine never ask for more than C digits for a number of D digits, with C at least 4\u00b7D, then N + 7 vectors of C digits and 16\u00b7D complex numbers are all the memory that is needed: the program never throws and computes what the integers say, however many statements it has. With digits of eight bytes, complex numbers of sixteen and vectors that double, 32\u00b7D\u00b7(N + 15) bytes are enough, and a Fibonacci number of at most D digits takes 576\u00b7D bytes.", "quantifier": "all programs of that kind and of any length, all D up to 2^31, N, machines, amounts of memory and initial capacities within the bounds", "why_tests_cant": "whether memory that is held and released piece by piece over millions of statements stays within a bound shows in no run that ends, and the bound is about all programs", "anchors": ["include/bignum/impl/bn_type_impl.h: constructors, operator=, operator+=, operator-=, operator*=, operator/=, operator+, operator-, operator*, operator/", "include/bignum/impl/bn_addition_impl.h: abs_val_add", "include/bignum/impl/bn_subtraction_impl.h: abs_val_sub", "include/bignum/impl/bn_division_impl.h: abs_val_div", "include/bignum/impl/bn_multiplication_impl.h", "include/bignum/impl/fourier_impl.h"]}
{"id": "C159", "title": "Differences of numbers with digits beyond the base", "statement": "In a release build -= of two numbers of one sign with arbitrary digits of the digit type ends without an exception, with digits of the type and no leading zeros. Such numbers are ordered by length and then as numbers in base 2^w, where w is the width of the type, not by value; the result takes its sign from that order and the number that comes later loses the other. If each column difference is at least minus the base and less than 2^w minus the base, the result is right except that a borrow from beyond the last digit is never paid back. If each is between minus the base and the base and the number that comes later is not the lesser, the result is right and its digits are below the base. += of numbers of opposite sign is -= of the number with its sign turned, and x -= x has no digits whatever its digits were.", "quantifier": "all custom bases, all digit values of the type, all lengths, own operand included; release builds with enough memory", "why_tests_cant": "the columns wrap at the width of the type, so results for the digits a test uses say nothing about the ranges in which they are right", "anchors": ["include/bignum/impl/bn_subtraction_impl.h: abs_val_sub", "include/bignum/impl/bn_compare_impl.h", "include/bignum/impl/bn_type_impl.h: operator-=, operator+=, operator>="]}
{"id": "C160", "title": "RSA written with the operators", "statement": "A client who raises to a power digit by digit of the exponent (r = powMod(r, base, m); t = powMod(x, e[i], m); r = r * t; r = r - r / m * m) gets x^e mod m for exponents of any size, if m does not divide that power. So RSA works: with n = p * q, phi = (p - 1) * (q - 1) and d = inverse(e, phi) computed by the operators from two different primes and an exponent e prime to phi, deciphering an enciphered message gives back that message, for every message above zero and below n. The message zero is an access out of bounds.", "quantifier": "all pairs of different primes, all e with no common divisor with phi, all messages 0 < x < n, in the base-2, 8, 10 and 16 types up to the stated lengths; release builds, enough memory, IEEE 754 doubles", "why_tests_cant": "division is wrong for equal operands and reduction fails for multiples of the modulus; that no key and no message runs into one of these takes number theory", "anchors": ["include/bignum/impl/bn_type_impl.h: operator*, operator/, operator-, operator[], size, constructors", "include/bignum/impl/bn_division_impl.h: abs_val_div", "include/bignum/impl/bn_multiplication_impl.h", "include/bignum/impl/bn_subtraction_impl.h: abs_val_sub"]}
{"id": "C161", "title": "Quotients of numbers with digits beyond the base", "statement": "push, resize and subscripts can leave digits of the type that are not below the base. In x /= y with such an x and a normal y above 1, let 2^j * y be the last of y, 2 y, 4 y, ... that does not come after x in the order of >=. If it is not greater than x in value and the digits of the two differ by less than the base (a difference of minus the base included, borrows counted), the quotient is the truncated one and normal. A divisor that comes after x gives 0, even where x is the greater value (19 as one digit over 11). A single digit v beyond the base over a digit d gives v / d up to the greatest digit plus the greatest of d, 2 d, 4 d, ... below the base; at the upper end of the type the quotient is too small (4294967295 / 2 = 4 in base 10). A digit of at least twice the base over the digit that equals the base never returns.", "quantifier": "all digit widths, all bases, all numbers with arbitrary digits of the type; release builds, enough memory", "why_tests_cant": "the digits that are fatal lie outside what parsing and arithmetic produce, and a test cannot observe that a call never returns", "anchors": ["include/bignum/impl/bn_type_impl.h: operator/=, push, resize, operator[]", "include/bignum/impl/bn_division_impl.h: abs_val_div", "include/bignum/impl/bn_subtraction_impl.h: abs_val_sub", "include/bignum/impl/bn_compare_impl.h"]}
{"id": "C162", "title": "An exact class of fractions on top of the library", "statement": "A client keeps a numerator and a denominator in the integer class of C151 and reduces every result with Euclid's algorithm. Sums, differences, products and quotients of such fractions are exact for all rational numbers, a quotient by zero throws, comparisons tell the order of the rational numbers, and the result is in lowest terms with a positive denominator, so that equal numbers are equal objects. A program of assignments, conditions and loops over this class ends with the values it computes over the rational numbers, with the same exception, or not at all where that does not end.", "quantifier": "all rational numbers, all programs, all digit types; release builds, enough memory", "why_tests_cant": "the library's own operators are wrong for some operands; that a class of some lines goes round all of them at every step of every program cannot be tested", "anchors": ["include/bignum/impl/bn_type_impl.h: operator+, operator<, operator==, operator[], size, pop_back, clear, setDescriptor", "include/bignum/impl/bn_addition_impl.h: abs_val_add", "include/bignum/impl/bn_subtraction_impl.h: abs_val_sub", "include/bignum/impl/bn_compare_impl.h"]}
{"id": "C163", "title": "Keys agreed and messages sent modulo a prime", "statement": "Two parties who raise a generator to secret powers modulo a prime with the operators of the library (Diffie and Hellman) hold the same key, the power of the generator to the product of the secrets. A message above zero and below the prime that is enciphered with the public key of one of them and any key used once (ElGamal) is what the owner of the secret deciphers. The message zero is an access out of bounds.", "quantifier": "all primes, generators, secrets and messages of up to a third of the digits that the multiplication allows; release builds, enough memory", "why_tests_cant": "the claim is about all secrets modulo all primes; the remainders on the way take the library through quotients and products of every size", "anchors": ["include/bignum/impl/bn_type_impl.h: operator*, operator/, operator-, operator[], size", "include/bignum/impl/bn_division_impl.h: abs_val_div", "include/bignum/impl/bn_multiplication_impl.h", "include/bignum/impl/bn_subtraction_impl.h: abs_val_sub"]}
{"id": "C164", "title": "The test of Miller and Rabin", "statement": "The primality test of Miller and Rabin, written with the operators of the library, gives the textbook's answer to every base for every odd number: true if the base raised to the odd part of m - 1 is one or one of the squares that follow is minus one. In particular no prime is rejected.", "quantifier": "all odd numbers above one and all bases below them, of up to a third of the digits that the multiplication allows; release builds, enough memory", "why_tests_cant": "a wrong answer appears only for numbers of one form and a few bases to each of them; that primes are never rejected is a claim about all primes", "anchors": ["include/bignum/impl/bn_type_impl.h: operator*, operator/, operator-, operator+, operator==, operator[], size", "include/bignum/impl/bn_division_impl.h: abs_val_div", "include/bignum/impl/bn_multiplication_impl.h", "include/bignum/impl/bn_subtraction_impl.h: abs_val_sub"]}
{"id": "C165", "title": "Fibonacci numbers by fast doubling", "statement": "Fast doubling over the bits of the index, F(2k) = F(k) (2 F(k+1) - F(k)) and F(2k+1) = F(k)^2 + F(k+1)^2, gives the Fibonacci number of every index above zero if it is started at the first bit with F(1) = F(2) = 1. Started with F(0) = 0 and F(1) = 1, as it is usually written, it never returns for any index above zero, since the first step squares zero.", "quantifier": "all indices above zero whose next Fibonacci number has fewer digits than the sum of the lengths of factors that the multiplication allows; release builds, enough memory", "why_tests_cant": "the index is unbounded and the numbers grow with it; a test that does not return does not tell whether it would", "anchors": ["include/bignum/impl/bn_type_impl.h: operator*, operator+, operator-", "include/bignum/impl/bn_multiplication_impl.h", "include/bignum/impl/bn_addition_impl.h: abs_val_add", "include/bignum/impl/bn_subtraction_impl.h: abs_val_sub"]}
{"id": "C166", "title": "Binomial coefficients by the multiplicative formula", "statement": "The loop that multiplies by n - k + i and divides by i, for i from 1 to k, gives the binomial coefficient n over k for all k up to n.", "quantifier": "all n and k whose coefficient times k has fewer digits than the sum of the lengths of factors that the multiplication allows; release builds, enough memory", "why_tests_cant": "the coefficients are unbounded and every quotient on the way has to be exact; the wrong ones are those at the edge of the triangle", "anchors": ["include/bignum/impl/bn_type_impl.h: operator*, operator/, operator+", "include/bignum/impl/bn_multiplication_impl.h", "include/bignum/impl/bn_division_impl.h: abs_val_div", "include/bignum/impl/bn_addition_impl.h: abs_val_add"]}
{"id": "C167", "title": "The Chinese remainder theorem", "statement": "For coprime m and n above one and any residues a below m and b below n, zero among them, the formula (a n i + b m j) mod m n with the inverses i and j of C146, written with the operators of the library, gives the only number from zero to below m n that leaves the remainders a and b.", "quantifier": "all coprime moduli and all residues, of up to a third of the digits that the multiplication allows; release builds, enough memory", "why_tests_cant": "the operators fail for zeros without digits, for equal operands of a quotient and for differences of some signs; that none of these occurs on the way, for no pair of moduli and residues, cannot be tested", "anchors": ["include/bignum/impl/bn_type_impl.h: operator*, operator/, operator-, operator+, operator!=", "include/bignum/impl/bn_multiplication_impl.h", "include/bignum/impl/bn_division_impl.h: abs_val_div", "include/bignum/impl/bn_subtraction_impl.h: abs_val_sub", "include/bignum/impl/bn_addition_impl.h: abs_val_add"]}
{"id": "C168", "title": "Continued fractions", "statement": "For positive a and b the loop that pushes a / b and goes on with b and a - a / b * b until b is zero ends, the numbers it pushes are zero only at the first place, and the continued fraction of them has exactly the value a / b. (True for all a and b that differ, and for 1 and 1; for equal numbers above one the loop never ends.)", "quantifier": "all positive operands of up to half of the digits that the multiplication allows; release builds, enough memory", "why_tests_cant": "one class of operands makes the quotient wrong at the first round only; that no later round, of an unbounded number, meets it is a fact about all runs", "anchors": ["include/bignum/impl/bn_type_impl.h: operator/, operator*, operator-, operator!=", "include/bignum/impl/bn_division_impl.h: abs_val_div", "include/bignum/impl/bn_multiplication_impl.h", "include/bignum/impl/bn_subtraction_impl.h: abs_val_sub", "include/bignum/impl/bn_compare_impl.h"]}
{"id": "C169", "title": "The test of Lucas and Lehmer", "statement": "The loop s = (s * s + (m - 2)) mod m, p - 2 times from s = 4 with m = 2^p - 1, written with the operators of the library, ends with zero exactly when m is prime. For an m that is not prime it ends with another number, unless one of the numbers 4, 14, 194, ... before the last is a multiple of m: then it never ends, since the square of the zero never ends.", "quantifier": "all exponents p from three on whose number m has up to a third of the digits that the multiplication allows; release builds, enough memory", "why_tests_cant": "the remainder is wrong for equal operands and the square of a zero never ends; that a run for a prime, of p - 2 rounds, meets neither needs the theorem of Lucas and Lehmer", "anchors": ["include/bignum/impl/bn_type_impl.h: operator*, operator+, operator/, operator-, operator==", "include/bignum/impl/bn_multiplication_impl.h", "include/bignum/impl/bn_addition_impl.h: abs_val_add", "include/bignum/impl/bn_division_impl.h: abs_val_div", "include/bignum/impl/bn_subtraction_impl.h: abs_val_sub", "include/bignum/impl/bn_compare_impl.h"]}
{"id": "C170", "title": "Pepin's test", "statement": "For the Fermat numbers f = 2^(2^k) + 1 from five on, h = f - 1, r = 3 to the power h / 2 modulo f with the loop of C160, and the comparison r == h, written with the operators of the library, give true exactly for the primes.", "quantifier": "all k from one on whose Fermat number has up to a third of the digits that the multiplication allows; release builds, enough memory", "why_tests_cant": "only five Fermat numbers are known to be prime; that the answer is right for all, and that no step meets a zero or a quotient of equal numbers, needs Pepin's theorem", "anchors": ["include/bignum/impl/bn_type_impl.h: operator-, operator/, operator*, operator==, operator[], size", "include/bignum/impl/bn_subtraction_impl.h: abs_val_sub", "include/bignum/impl/bn_division_impl.h: abs_val_div", "include/bignum/impl/bn_multiplication_impl.h", "include/bignum/impl/bn_compare_impl.h"]}
{"id": "C171", "title": "Polynomials by Horner's rule", "statement": "The loop r = r * x + c over the coefficients from the highest to the lowest, from a default-constructed r, gives the value of the polynomial at x, for every positive x and all coefficients that are positive or default-constructed zeros, leading zeros among them. At x = 0 the loop never ends for any polynomial with a coefficient, since the first product is the zero times the zero.", "quantifier": "all polynomials with such coefficients, all positive x, as long as the value and x have one digit less than the multiplication allows; debug and release builds, enough memory", "why_tests_cant": "polynomials have any number of coefficients; that the zeros with and without a digit that occur on the way never spoil the result is a fact about all of them", "anchors": ["include/bignum/impl/bn_type_impl.h: operator*, operator+", "include/bignum/impl/bn_multiplication_impl.h", "include/bignum/impl/bn_addition_impl.h: abs_val_add"]}
{"id": "C172", "title": "Certificates of primality", "statement": "For m from two on and the list of the prime factors q of m - 1, the check a^(m-1) mod m == 1 and a^((m-1)/q) mod m != 1 for all q, written with the operators of the library and the power of C160, ends for every a from one to below m that is prime to m, accepts only for primes m, and accepts some a for every prime m. (True but for m = 3: no a is accepted for three, since 2 / 2 is 0.)", "quantifier": "all m of up to a third of the digits that the multiplication allows, all a; release builds, enough memory", "why_tests_cant": "a check of some certificates says nothing on whether a composite number is ever accepted; this needs the theorem of Lucas for all numbers", "anchors": ["include/bignum/impl/bn_type_impl.h: operator-, operator/, operator*, operator==, operator[], size", "include/bignum/impl/bn_subtraction_impl.h: abs_val_sub", "include/bignum/impl/bn_division_impl.h: abs_val_div", "include/bignum/impl/bn_multiplication_impl.h", "include/bignum/impl/bn_compare_impl.h"]}
{"id": "C173", "title": "Collatz sequences", "statement": "The loop that replaces x by x / 2 when x / 2 + x / 2 == x and by x + x + x + 1 otherwise, written with the operators of the library, computes the Collatz sequence of x exactly, with one exception: two is followed by seven instead of one, since 2 / 2 is 0. So the loop while (x != 1) ends for no x from two on, even where the Collatz sequence of x reaches one.", "quantifier": "all numbers from two on of any length, any number of rounds, all custom bases that leave room for the sum of two digits and a carry; release builds, enough memory", "why_tests_cant": "that a loop does not end cannot be seen by waiting, and that it ends for no number at all is a statement on infinitely many numbers, independent of the conjecture", "anchors": ["include/bignum/impl/bn_type_impl.h: operator/, operator+, operator==, operator!=", "include/bignum/impl/bn_division_impl.h: abs_val_div", "include/bignum/impl/bn_addition_impl.h: abs_val_add", "include/bignum/impl/bn_compare_impl.h"]}
{"id": "C174", "title": "Integer logarithms", "statement": "The loop while (x >= b) { x = x / b; ++i; } counts exactly the logarithm of x to the base b, rounded down, for all positive x and all b from two on, although the quotient of equal numbers is wrong. What is left in x is the leading digit of x in base b, except when the two leading digits in base b are one and zero: then zero is left.", "quantifier": "all positive x and all b from two on of any length, all custom bases that leave room for the sum of two digits and a carry; release builds, enough memory", "why_tests_cant": "the fault of the quotient is met in some runs and shows in one result but never in the other; this is a statement on all pairs of numbers", "anchors": ["include/bignum/impl/bn_type_impl.h: operator>=, operator/", "include/bignum/impl/bn_compare_impl.h", "include/bignum/impl/bn_division_impl.h: abs_val_div"]}
{"id": "C175", "title": "Sums of divisors and perfect numbers", "statement": "The loop over d from one to below x that adds d to a sum when x / d * d == x, written with the operators of the library, ends with the sum of the divisors of x below x, and comparing it with x finds exactly the perfect numbers.", "quantifier": "all positive x of up to half of the digits that the multiplication allows; release builds, enough memory", "why_tests_cant": "the operators fail for equal operands and for zeros; that no round of the loop meets these, for no number, and that the sum is right for all cannot be tested", "anchors": ["include/bignum/impl/bn_type_impl.h: operator/, operator*, operator+, operator==, operator!=", "include/bignum/impl/bn_division_impl.h: abs_val_div", "include/bignum/impl/bn_multiplication_impl.h", "include/bignum/impl/bn_addition_impl.h: abs_val_add", "include/bignum/impl/bn_compare_impl.h"]}
{"id": "C176", "title": "Sums by closed formulas", "statement": "x * (x + 1) / 2 is the sum of the numbers from one to x and x * (x + 1) * (x + x + 1) / 6 the sum of their squares, for every positive x. (True from two on; for x = 1 both are 0.)", "quantifier": "all positive x with four times one more than their digits within what the multiplication allows; release builds, enough memory", "why_tests_cant": "a single number is wrong among all; tests that begin at two never meet it, and that there is no other is a statement on all numbers", "anchors": ["include/bignum/impl/bn_type_impl.h: operator*, operator+, operator/", "include/bignum/impl/bn_multiplication_impl.h", "include/bignum/impl/bn_addition_impl.h: abs_val_add", "include/bignum/impl/bn_division_impl.h: abs_val_div"]}
