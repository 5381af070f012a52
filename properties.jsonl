{"id": "C01", "title": "Widening word arithmetic is exact", "statement": "widening_mul / carrying_mul / carrying_add / borrowing_sub (and their *_hw forms) return low and high words (or a word and a carry/borrow flag) whose combined value is exactly the integer product, product plus carry, sum or difference.", "quantifier": "all operands and carries of every unsigned width (u8, u16, u32, u64), stated for an arbitrary width w", "why_tests_cant": "The input space is every pair (or triple) of machine words at every width; wrong carries show only on rare high-bit patterns that sampled tests miss.", "anchors": ["algebra/src/primitive/widening/widening_mul.rs", "algebra/src/primitive/widening/carrying_mul.rs", "algebra/src/primitive/widening/carrying_add.rs", "algebra/src/primitive/widening/borrowing_sub.rs"]}
{"id": "C02", "title": "Barrett modulus construction accepts exactly the supported moduli", "statement": "BarrettModulus::new(m) panics for m = 0, m = 1 and for m of BITS-1 or more bits; for every other m it succeeds and the stored two-word ratio is exactly floor(2^(2*BITS) / m).", "quantifier": "all words m of every width", "why_tests_cant": "An off-by-one in the two-step wide division affects only particular moduli; tests use a handful of primes.", "anchors": ["algebra/src/modulus/barrett/internal_macros.rs: new (11-70)", "algebra/src/modulus/barrett/mod.rs: BarrettModulus"]}
{"id": "C03", "title": "Barrett reduction returns the residue", "statement": "Reducing any one-word or two-word value (array or tuple form) by a BarrettModulus returns the value mod m; the lazy form returns a congruent value below 2m; no intermediate addition overflows (so debug builds do not panic).", "quantifier": "all moduli accepted by new, all one-word and two-word inputs, every width", "why_tests_cant": "2^128 inputs times every modulus; failures of Barrett estimates sit on isolated points near multiples of m.", "anchors": ["algebra/src/modulus/barrett/internal_macros.rs: LazyReduce, Reduce for T, [T;2], (T,T)"]}
{"id": "C04", "title": "Barrett reduction of multi-word integers", "statement": "Reducing a non-empty little-endian word slice by a BarrettModulus returns the represented big integer mod m, for any slice length.", "quantifier": "all slice lengths >= 1, all words, all accepted moduli", "why_tests_cant": "Slice length is unbounded; tests cover fixed short slices.", "anchors": ["algebra/src/modulus/barrett/internal_macros.rs: Reduce for &[T] (396-431)"]}
{"id": "C05", "title": "Modular add/sub/neg/mul are the ring operations of Z/m", "statement": "For operands below m, add_reduce, sub_reduce, neg_reduce and mul_reduce (native-word modulus and Barrett modulus) return canonical representatives in [0, m) of the sum, difference, negation and product in Z/m, without overflow.", "quantifier": "all operands below m, all moduli the type is documented to accept", "why_tests_cant": "Boundary operands (0, m-1) at extreme moduli are exactly where word overflow appears; a sample of primes does not settle it.", "anchors": ["algebra/src/reduce/macros.rs: impl_reduce_ops_for_primitive (3-113)", "algebra/src/modulus/barrett/ops.rs", "algebra_derive/src/ops.rs"]}
{"id": "C06", "title": "Modular exponentiation", "statement": "exp_reduce(a, e) returns a^e mod m and exp_power_of_2_reduce(a, k) returns a^(2^k) mod m, including e = 0, for every modulus kind.", "quantifier": "all bases below m, all exponents, all accepted moduli", "why_tests_cant": "The square-and-multiply loop has data-dependent shape (trailing-zero stripping); each exponent is its own path.", "anchors": ["algebra/src/modulus/barrett/ops.rs: ExpReduce, ExpPowOf2Reduce (103-170)", "algebra/src/modulus/powof2/internal_macros.rs", "algebra/src/modulus/goldilocks/ops.rs", "algebra/src/modulus/baby_bear/ops.rs"]}
{"id": "C07", "title": "Modular inverse and division", "statement": "inv_reduce(a, m) returns the unique x in [1, m) with a*x = 1 (mod m) whenever gcd(a, m) = 1 and panics otherwise; try_inv_reduce returns Ok exactly when gcd(a, m) = 1; a derived prime field's inv/div agree with the field inverse.", "quantifier": "all a in [1, m), all moduli m representable in the signed type of the same width", "why_tests_cant": "Correctness needs signed coefficient bounds through an unbounded loop; tests sample a few pairs.", "anchors": ["algebra/src/reduce/macros.rs: InvReduce, TryInvReduce (75-111)", "algebra/src/utils/gcd.rs: extended_gcd", "algebra_derive/src/ops.rs: inv_reduce_ops, div_reduce_ops"]}
{"id": "C08", "title": "Dot product modulo m", "statement": "dot_product_reduce(a, b) of two equal-length slices returns sum of a_i*b_i mod m for every length.", "quantifier": "all equal-length slices of reduced operands, every modulus kind", "why_tests_cant": "The implementation processes blocks of 16; correctness depends on every length residue and on no accumulator overflow over a full block.", "anchors": ["algebra/src/reduce/ops.rs: DotProductReduce (163-184)", "algebra/src/modulus/barrett/internal_macros.rs: DotProductReduce (498-531)", "algebra/src/modulus/goldilocks/ops.rs", "algebra/src/modulus/powof2/internal_macros.rs", "algebra/src/modulus/baby_bear/ops.rs"]}
{"id": "C09", "title": "Shoup multiplication", "statement": "Multiplying any word by a ShoupFactor (v, m) with v < m returns v*x mod m; the lazy form returns a congruent value in [0, 2m) for every word x, even x >= m.", "quantifier": "all words x, all v < m, all moduli with 2m representable", "why_tests_cant": "The input space is every pair (or triple) of machine words at every width; wrong carries show only on rare high-bit patterns that sampled tests miss.", "anchors": ["algebra/src/modulus/shoup/mod.rs: ShoupFactor", "algebra/src/modulus/shoup/internal_macros.rs"]}
{"id": "C10", "title": "Power-of-two modulus arithmetic", "statement": "PowOf2Modulus::new accepts exactly powers of two greater than one, and add/sub/neg/mul/exp/dot-product with it equal the operations of Z/2^k on canonical representatives.", "quantifier": "all words, all k in [1, BITS), all slice lengths", "why_tests_cant": "Correctness rests on wrap-around commuting with masking for all words and all lengths.", "anchors": ["algebra/src/modulus/powof2/mod.rs", "algebra/src/modulus/powof2/internal_macros.rs"]}
{"id": "C11", "title": "BabyBear field arithmetic", "statement": "With to/from-Montgomery conversion, BabyBear add, sub, neg, mul, inverse, division, power-of-two exponentiation and dot product compute the corresponding operations of Z/2013265921 and keep values canonical; inversion fails exactly on zero.", "quantifier": "all canonical Montgomery representatives", "why_tests_cant": "2^62 operand pairs; Montgomery reduction errors show only on rare borrow patterns.", "anchors": ["algebra/src/modulus/baby_bear/mod.rs", "algebra/src/modulus/baby_bear/ops.rs"]}
{"id": "C12", "title": "Goldilocks field arithmetic", "statement": "Goldilocks add, sub, mul, 128-bit reduction, inverse, exponentiation and dot product return words congruent to the exact result mod 2^64-2^32+1 for every pair of input words, including non-canonical ones.", "quantifier": "all pairs of 64-bit words", "why_tests_cant": "Double-overflow corrections are needed only for inputs within 2^32 of the modulus; random tests essentially never hit them.", "anchors": ["algebra/src/modulus/goldilocks/mod.rs", "algebra/src/modulus/goldilocks/ops.rs"]}
{"id": "C13", "title": "Goldilocks results are canonical and closed under negation", "statement": "Reduce returns the canonical representative in [0, P); negation and inversion of any value produced by the other operations are correct.", "quantifier": "all 64-bit words, all values reachable through the public operations", "why_tests_cant": "Non-canonical intermediate values are produced only by rare operand pairs.", "anchors": ["algebra/src/modulus/goldilocks/ops.rs: Reduce (15-33), NegReduce (79-95), InvReduce", "algebra/src/modulus/goldilocks/mod.rs: try_inverse"]}
{"id": "C14", "title": "Greatest common divisor and Bezout coefficients", "statement": "gcd(x, y) returns the mathematical gcd; extended_gcd(x, y) on positive inputs returns (a, b, g) with a*x + b*y = g = gcd(x, y), with all intermediate signed values inside the signed word type.", "quantifier": "all pairs of words (positive pairs representable in the signed type for extended_gcd)", "why_tests_cant": "Binary gcd loops have unbounded data-dependent iteration; overflow freedom needs an invariant.", "anchors": ["algebra/src/utils/gcd.rs: gcd, extended_gcd, coprime"]}
{"id": "C15", "title": "Primality test never rejects a prime", "statement": "probably_prime(p, rounds) returns true for every prime p, for any number of rounds and any random witnesses.", "quantifier": "all primes below 2^BITS of every Barrett-supported width, all round counts, all witness sequences", "why_tests_cant": "Random witnesses and infinitely many primes; a test samples a few.", "anchors": ["algebra/src/utils/prime.rs: probably_prime (19-104)"]}
{"id": "C16", "title": "Primality test rejects composites unless every round's witness is a strong liar", "statement": "probably_prime(n, rounds) returns true for a composite n only if every one of the requested rounds drew a strong liar, so that adding rounds reduces the error; it is always right below 2^6.", "quantifier": "all composites, all round counts, all witness sequences", "why_tests_cant": "A control-flow slip (leaving the round loop early) is invisible on small composites removed by trial division.", "anchors": ["algebra/src/utils/prime.rs: probably_prime (19-104)"]}
{"id": "C17", "title": "Bit reversal is an involutive permutation", "statement": "reverse_lsbs(i, k) of i < 2^k is the number whose k-bit representation is that of i reversed; it is below 2^k and applying it twice returns i.", "quantifier": "all k < BITS and all i < 2^k", "why_tests_cant": "The table index map must be a bijection for every size.", "anchors": ["algebra/src/utils/reverse.rs: reverse_lsbs"]}
{"id": "C18", "title": "Uniform field sampling is exactly uniform", "statement": "FieldUniformSampler / Field::random map accepted random words to residues so that every residue in [0, q) is hit by exactly the same number of words, rejected words are fewer than q, and the result is always below q.", "quantifier": "all moduli q in [1, 2^w) and all random words", "why_tests_cant": "Bias in rejection sampling is a counting statement over all 2^w words; statistical tests cannot detect a bias of one part in 2^40.", "anchors": ["algebra/src/random.rs: FieldUniformSampler", "algebra/src/field/mod.rs: Field::random"]}
{"id": "C19", "title": "Binary, ternary and centred-binomial sampling have the stated support and distribution", "statement": "Binary sampling yields only 0/1, ternary only 0, 1, -1 with 2:1:1 weights per 2-bit chunk, centred binomial yields a - b of two 21-bit popcounts (magnitude at most 21); the output has the requested length for every length.", "quantifier": "all random words, all requested lengths, all moduli", "why_tests_cant": "Chunk/remainder handling depends on length modulo 16/32; distribution is a counting statement.", "anchors": ["algebra/src/utils/sample.rs", "lattice/src/utils/sample.rs"]}
{"id": "C20", "title": "Gadget decomposition recomposes exactly", "statement": "Decomposing any field element with a basis of `bits` bits yields exactly decompose_len digits, each below 2^bits, whose base-2^bits combination equals the element; streaming (least-significant-first) decomposition gives the same digits; the powers of the base used for keys stay below the modulus.", "quantifier": "all moduli, all basis sizes accepted by Basis::new, all elements", "why_tests_cant": "Depends on the relation of modulus bit length, power-of-two special case and ceil division for every modulus.", "anchors": ["algebra/src/decompose_basis.rs: Basis::new", "algebra_derive/src/decomposable_field.rs", "algebra/src/polynomial/native_polynomial.rs: decompose, decompose_lsb_bits_inplace", "lattice/src/utils/decompose_basis.rs"]}
{"id": "C21", "title": "In-place decomposition overwrites the whole destination", "statement": "decompose_at writes the same digits into the destination as decompose returns, whatever the destination held before.", "quantifier": "all field elements, bases and prior destination contents", "why_tests_cant": "Tests start from zeroed buffers, which hides stale digits.", "anchors": ["algebra_derive/src/decomposable_field.rs: decompose_at (37-50)"]}
{"id": "C22", "title": "Polynomial ring operations", "statement": "Coefficient-wise add, sub, neg and scalar multiplication, and Horner evaluation, agree with the operations and evaluation of polynomials over Z/q (commutative group, module, evaluation homomorphism).", "quantifier": "all coefficient vectors of all lengths", "why_tests_cant": "Lengths and coefficients are unbounded.", "anchors": ["algebra/src/polynomial/native_polynomial.rs: Add, Sub, Neg, mul_scalar, evaluate", "algebra/src/polynomial/ntt_polynomial.rs"]}
{"id": "C23", "title": "Number theoretic transform evaluates the polynomial", "statement": "The forward transform of n = 2^k coefficients in [0, 4q) returns, in bit-reversed order, the canonical values of the polynomial at the odd powers of the 2n-th root; all lazy intermediate values stay inside the word.", "quantifier": "all k >= 1 with 2n | q-1, all coefficient vectors in the documented range, all moduli below 2^(BITS-2)", "why_tests_cant": "Transform sizes and inputs are unbounded; lazy butterfly ranges can only overflow on extreme inputs.", "anchors": ["algebra/src/transformation/ntt_table.rs: NTTTable::new (52-101), transform_slice (297-327)"]}
{"id": "C24", "title": "Inverse transform undoes the transform", "statement": "inverse_transform(transform(p)) = p for every reduced polynomial, transform(inverse_transform(v)) = v for every reduced vector, and inputs in [0, 2q) are accepted.", "quantifier": "all k >= 1, all inputs in range", "why_tests_cant": "Same as the forward transform: unbounded sizes and lazy ranges.", "anchors": ["algebra/src/transformation/ntt_table.rs: inverse_transform_slice (329-374)"]}
{"id": "C25", "title": "Polynomial product is negacyclic convolution", "statement": "Multiplying two polynomials through the transform returns their product modulo X^n + 1 over Z/q.", "quantifier": "all n = 2^k, all pairs of reduced polynomials", "why_tests_cant": "Pairs of length-n vectors for unbounded n.", "anchors": ["algebra/src/polynomial/native_polynomial.rs: MulAssign, Mul (519-)", "algebra/src/polynomial/ntt_polynomial.rs: MulAssign"]}
{"id": "C26", "title": "Monomial transform shortcut equals the full transform", "statement": "transform_monomial(c, d) writes exactly the transform of the polynomial c*X^d mod X^n+1 for every degree d (also d >= n) and every coefficient, including the special cases c = 0, 1, -1.", "quantifier": "all degrees, coefficients and transform sizes", "why_tests_cant": "The index arithmetic modulo 2n must hold for all degrees; tests sample.", "anchors": ["algebra/src/transformation/ntt_table.rs: transform_monomial (202-285)"]}
{"id": "C27", "title": "Primitive root search is sound and canonical", "statement": "is_primitive_root accepts exactly the elements of multiplicative order `degree` (a power of two); when try_minimal_primitive_root succeeds it returns the smallest such element, independent of the random candidates drawn.", "quantifier": "all prime moduli, all power-of-two degrees, all random draws", "why_tests_cant": "Randomised search; determinism across runs is a for-all-draws statement.", "anchors": ["algebra_derive/src/ntt.rs: is_primitive_root, try_primitive_root, try_minimal_primitive_root (83-145)"]}
{"id": "C28", "title": "Transform table cache is consistent over any history", "statement": "After any sequence of init/get calls, a successful get returns the table for the requested size, a table once published for a size is never replaced, and a failed init leaves earlier tables in place. After a call that panicked no further table can be created, but those there are stay available; as long as no call panicked, get succeeds whenever the table exists or its generation succeeds.", "quantifier": "all sequences of init/get calls with arbitrary sizes and failures", "why_tests_cant": "Histories are unbounded.", "anchors": ["algebra_derive/src/ntt.rs: get_ntt_table, init_ntt_table (149-193)"]}
{"id": "C29", "title": "Transform table cache is race free", "statement": "No interleaving of threads calling get_ntt_table / init_ntt_table lets one thread read the table map while another thread is modifying it.", "quantifier": "all thread counts and interleavings", "why_tests_cant": "Data races depend on the schedule.", "anchors": ["algebra_derive/src/ntt.rs: static mut NTT_TABLE, NTT_MUTEX (51-53, 149-193)"]}
{"id": "C30", "title": "Message encoding round trip with noise", "statement": "decode(encode(m) + e mod q) = m for every message m < t and every error -q/(2t) <= e < q/(2t); encode panics exactly for m >= t; decode never returns a value >= t.", "quantifier": "all powers of two t < q, all messages, all errors in range", "why_tests_cant": "All (t, q, m, e) combinations; boundaries of the rounding interval are the interesting points.", "anchors": ["fhe_core/src/plaintext.rs: encode (77-91), decode (105-118)"]}
{"id": "C31", "title": "LWE decryption inverts encryption", "statement": "decrypt(encrypt(m)) = m for every secret key, every mask vector and every noise value in the tolerated range.", "quantifier": "all keys, dimensions, masks, messages, noises in range", "why_tests_cant": "Randomised encryption: holds for all randomness only by proof.", "anchors": ["fhe_core/src/secret_key.rs: encrypt (150-177), decrypt (181-192)", "lattice/src/lwe.rs: generate_random_zero_sample"]}
{"id": "C32", "title": "Reported noise is the true noise magnitude", "statement": "decrypt_with_noise returns the message and exactly the absolute value of the centred noise of the ciphertext.", "quantifier": "all ciphertexts whose noise is in the tolerated range", "why_tests_cant": "All ciphertexts; two-sided wrap-around.", "anchors": ["fhe_core/src/secret_key.rs: decrypt_with_noise (196-215)"]}
{"id": "C33", "title": "LWE linear operations act on plaintext phases", "statement": "Component-wise addition, subtraction, negation and scalar multiplication of LWE ciphertexts add, subtract, negate and scale the phase b - <a, s> modulo q.", "quantifier": "all ciphertexts, keys and dimensions", "why_tests_cant": "Unbounded dimensions and all words.", "anchors": ["lattice/src/lwe.rs: *_reduce_component_wise*, scalar_mul_reduce_inplace, neg_reduce"]}
{"id": "C34", "title": "Sample extraction", "statement": "Extracting an LWE sample from an RLWE ciphertext yields an LWE ciphertext whose phase under the coefficient vector of the ring key is the constant coefficient of the RLWE phase; the truncated form is right when the key is zero beyond the dimension; the reversed form is right under the reversed key.", "quantifier": "all RLWE ciphertexts, keys and ring dimensions", "why_tests_cant": "Index/sign bookkeeping for all dimensions.", "anchors": ["lattice/src/rlwe.rs: extract_lwe, extract_lwe_locally, extract_partial_lwe_locally, extract_lwe_reverse_locally (331-379)"]}
{"id": "C35", "title": "Monomial multiplication of ring ciphertexts", "statement": "mul_monic_monomial_sub_one_inplace computes c*(X^r - 1) and add_assign_rhs_mul_monic_monomial computes self + rhs*X^r modulo X^N+1 for every r in [0, 2N], and they panic for r > 2N.", "quantifier": "all dimensions N, all r, all ciphertexts", "why_tests_cant": "Boundary rotations r = 0, N, 2N and slice splitting for all N.", "anchors": ["lattice/src/rlwe.rs: 382-484"]}
{"id": "C36", "title": "Gadget product multiplies the phase", "statement": "Multiplying a gadget ciphertext of m by a polynomial p yields an RLWE ciphertext whose phase is m*p plus the explicit error sum of digit_j(p)*e_j.", "quantifier": "all polynomials, keys, bases, gadget ciphertexts with arbitrary errors", "why_tests_cant": "All randomness and all polynomials.", "anchors": ["lattice/src/gadget/rlwe.rs: mul_polynomial*", "lattice/src/rlwe.rs: add_assign_gadget_rlwe_mul_polynomial*"]}
{"id": "C37", "title": "External product multiplies the phase", "statement": "RLWE times RGSW(m) yields an RLWE ciphertext whose phase is m times the input phase plus the explicit decomposition error; generated RGSW encryptions of 0 and 1 satisfy the required key relation.", "quantifier": "all RLWE inputs, keys, masks and errors", "why_tests_cant": "All randomness.", "anchors": ["lattice/src/rlwe.rs: mul_rgsw, mul_ntt_rgsw, mul_assign_ntt_rgsw (492-541)", "lattice/src/rgsw.rs: generate_random_zero_sample, generate_random_one_sample"]}
{"id": "C38", "title": "Blind rotation rotates the lookup table by the encrypted phase", "statement": "blind_rotate with keys for a binary or ternary secret yields an RLWE ciphertext whose phase is lut * X^(-(b - <a, s>)) plus an explicitly bounded error.", "quantifier": "all LWE ciphertexts modulo 2N, binary/ternary keys of any dimension, all lookup tables, all key errors, ring dimensions N up to 2^31 for ternary keys (index products must fit usize)", "why_tests_cant": "Induction over an unbounded key length with noise accumulation.", "anchors": ["fhe_core/src/blind_rotation/binary.rs", "fhe_core/src/blind_rotation/ternary.rs"]}
{"id": "C39", "title": "LWE key switching preserves the phase", "statement": "key_switch_for_lwe (LWE-based) turns a ciphertext under the ring key into one under the LWE key whose phase differs only by the explicit sum of used key errors.", "quantifier": "all ciphertexts, keys, bases, errors", "why_tests_cant": "All randomness and digit patterns.", "anchors": ["fhe_core/src/key_switch/lwe.rs"]}
{"id": "C40", "title": "RLWE key switching preserves the phase", "statement": "key_switch_for_rlwe and key_switch_for_lwe (RLWE-based) turn a ciphertext under the ring key into an LWE ciphertext under the LWE key (padded to a power of two) whose phase equals the input phase plus an explicit error, for equal and for smaller LWE dimension.", "quantifier": "all ciphertexts, keys, errors, dimension pairs with an LWE dimension of at least 2", "why_tests_cant": "Chunk, reversal and sign bookkeeping for all dimension pairs.", "anchors": ["fhe_core/src/key_switch/rlwe.rs"]}
{"id": "C41", "title": "Modulus switching rounds correctly despite floating point", "statement": "lwe_modulus_switch* maps every coefficient v to round(v*q'/q) mod q' (ties up), computed with f64 operations rounded to nearest, as long as 2*v*q' is below 2^53; the switched phase differs from the scaled phase by at most (1 + sum|s_i|)/2. For moduli of any size the deviation of one coefficient is at most 1/2 + 6/2^53 of the exact quotient, and that of the phase (1 + sum|s_i|)(1/2 + 6q'/2^53).", "quantifier": "all moduli and values in range, all secret keys", "why_tests_cant": "Floating-point rounding errors appear only at rare near-tie inputs.", "anchors": ["fhe_core/src/modulus_switch.rs"]}
{"id": "C42", "title": "Gate lookup tables decide the right Boolean function", "statement": "For each gate (nand, and, or, nor, xor, xnor, majority), the table built by the evaluator, read negacyclically at the combined phase of the inputs, yields +Q/8 exactly when the gate's Boolean function of the encrypted bits is true and -Q/8 otherwise, for every phase noise strictly inside the decision interval.", "quantifier": "all bits, all phases with noise in the tolerated interval, all ring dimensions and LWE moduli compatible with each other", "why_tests_cant": "All phase values at all parameter sets; interval boundaries.", "anchors": ["bool/src/bfhe/evaluate.rs: init_*_lut (339-537), lut_step (29-45), nand..majority (177-305)"]}
{"id": "C43", "title": "Homomorphic NOT", "statement": "not(c) decrypts to the negated bit with the same noise magnitude, for every ciphertext of a bit whose noise is in range.", "quantifier": "all ciphertexts, keys, moduli divisible by 4", "why_tests_cant": "All ciphertexts.", "anchors": ["bool/src/bfhe/evaluate.rs: not (160-168)"]}
{"id": "C44", "title": "Bootstrapped gates decrypt to the Boolean function of the inputs", "statement": "For two-input gates, majority and mux, decrypting the gate output gives the Boolean function of the decrypted inputs whenever the input noises and the accumulated bootstrapping noise satisfy the stated bounds, for each of the three bootstrapping step orders.", "quantifier": "all keys, key errors, ciphertexts and parameter sets satisfying the noise bound", "why_tests_cant": "All randomness in key generation and encryption.", "anchors": ["bool/src/bfhe/evaluate.rs: bootstrap (71-122), nand, and, nor, or, xor, xnor, majority, mux", "fhe_core/src/blind_rotation/mod.rs", "fhe_core/src/modulus_switch.rs", "fhe_core/src/key_switch/lwe.rs", "fhe_core/src/key_switch/rlwe.rs"]}
{"id": "C45", "title": "Parameter validation", "statement": "Parameters::new returns an error or panics exactly when the ring dimension is not a power of two, 2N does not divide Q-1, t > q, or t or q is not a power of two; parameters it accepts never make encrypt/decrypt panic for in-range messages.", "quantifier": "all parameter tuples", "why_tests_cant": "All tuples including the corner t = q.", "anchors": ["fhe_core/src/parameter.rs: Parameters::new (120-179)"]}
{"id": "C46", "title": "Batch block encryption equals block-wise encryption", "statement": "Encrypting a slice of blocks of any length gives exactly the per-block encryptions in order.", "quantifier": "all slice lengths and contents, all keys", "why_tests_cant": "The 8-way batching with remainder dispatch depends on every length modulo 8.", "anchors": ["algebra/src/utils/aes.rs: encrypt_many_blocks, encrypt_block_slice (242-271)"]}
{"id": "C47", "title": "Pseudo-random generator stream", "statement": "The generator's output stream is the encryption of consecutive counter values; no counter value is reused until the counter wraps, and the same seed gives the same stream however requests are split. Words, double words, bytes, booleans and blocks are read from the stream consecutively, and a generator made from another one takes its seed from the stream.", "quantifier": "all seeds, all request histories", "why_tests_cant": "Histories are unbounded.", "anchors": ["algebra/src/utils/prg.rs"]}
{"id": "C48", "title": "128-bit block conversions round-trip", "statement": "Conversions of Block to and from byte arrays, u128, u64 pairs and slices are mutually inverse, and try_from_slice succeeds exactly on 16-byte slices.", "quantifier": "all blocks and slices", "why_tests_cant": "2^128 blocks; endianness must match for all.", "anchors": ["algebra/src/utils/block.rs"]}
{"id": "C49", "title": "Field element construction and serialisation", "statement": "new(v) is the residue of v for every word, and deserialising a serialised element returns the same element; every value obtained by deserialisation is canonical.", "quantifier": "all words, all derived fields", "why_tests_cant": "All words.", "anchors": ["algebra_derive/src/field.rs: impl_field (95-120)", "algebra_derive/src/basic.rs: impl_ser, impl_deser (165-206)"]}
{"id": "C50", "title": "Polynomial inverse", "statement": "The inverse of a polynomial multiplied with it gives 1 modulo X^n + 1, and asking for the inverse of a polynomial that has none does not silently return a value.", "quantifier": "all n = 2^k, all reduced polynomials", "why_tests_cant": "Invertibility depends on all n evaluations; vectors of unbounded length.", "anchors": ["algebra/src/polynomial/native_polynomial.rs: Inv (676-695)", "algebra/src/polynomial/ntt_polynomial.rs: Inv (559-576)"]}
{"id": "C51", "title": "AES-128 conforms to FIPS 197 on both architectures", "statement": "Aes::new followed by encrypt_block computes the FIPS 197 AES-128 cipher of the block under the key, for every key and block, with the x86 instructions and with the aarch64 replacements of them; the two architectures produce the same round keys and ciphertexts, and encryption under a fixed key is injective.", "quantifier": "all 2^128 keys and 2^128 blocks, both architectures", "why_tests_cant": "Known-answer tests cover a handful of the 2^256 key/block pairs and run on one architecture only.", "anchors": ["algebra/src/utils/aes.rs: Aes::new, encrypt_block", "algebra/src/utils/sse2neon.rs"]}
{"id": "C52", "title": "From key generation to decryption", "statement": "Secret key generation yields keys whose elements are 0, 1 or -1 modulo the respective modulus (or the Gaussian samples), and EvaluationKey::new yields a key that encrypts them with the drawn errors; with these keys, encrypting any bits, evaluating any circuit of gates of any depth and decrypting gives the value of the circuit, for every step order and every randomness whose worst-case noise has a stable level below the decision bounds. The crate's parameter sets are accepted and meet the structural conditions.", "quantifier": "all random words and samples in range, all key types and step orders, all inputs, all circuits of any size and depth", "why_tests_cant": "Key material, encryption randomness and circuits are unbounded.", "anchors": ["fhe_core/src/secret_key.rs: SecretKeyPack::new, encrypt, decrypt", "bool/src/bfhe/evaluate.rs: EvaluationKey::new, nand, and, nor, or, xor, xnor, majority, mux", "fhe_core/src/blind_rotation/mod.rs", "bool/src/bfhe/parameters.rs"]}
{"id": "C53", "title": "Gaussian samplers return bounded residues", "statement": "A sample of DiscreteGaussian or FieldDiscreteGaussianSampler is the canonical residue of a normal deviate rounded to the nearest integer (ties away from zero), namely of the first deviate closer to the mean than the limit; new accepts exactly the non-negative deviations and sets the limit to six deviations; random_with_gaussian returns n canonical coefficients, each the residue of an integer of at most the rounded limit; with mean 0 the samplers are symmetric. The modulus must leave room for the limit: otherwise words that are not residues are returned or the subtraction overflows. With deviation 0 no deviate is ever accepted.", "quantifier": "all streams of deviates, all means, deviations, limits, moduli and lengths", "why_tests_cant": "The stream of deviates is unbounded and random; rejection and rounding boundaries are hit with negligible probability.", "anchors": ["algebra/src/random.rs: FieldDiscreteGaussianSampler (112-217)", "lattice/src/utils/sample.rs: DiscreteGaussian (55-153)", "algebra/src/polynomial/native_polynomial.rs: random_with_gaussian (232-245)", "fhe_core/src/parameter.rs: *_noise_distribution (263-296)"]}
{"id": "C54", "title": "Transform tables do not depend on randomness or history", "statement": "Two successful generations of the transform table of one size return the same table whatever random candidates were drawn, and two requests for one size return equal tables in any two runs, after any calls in any order.", "quantifier": "all derived prime fields, all sizes, all random draws, all call histories", "why_tests_cant": "The root search is randomised and the cache is filled in any order; tests see one run.", "anchors": ["algebra_derive/src/ntt.rs: generate_ntt_table (370-396), get_ntt_table, init_ntt_table (149-193)", "algebra_derive/src/field.rs", "algebra/src/transformation/ntt_table.rs"]}
{"id": "C55", "title": "Unchecked table accesses stay in bounds", "statement": "The monomial transforms of every table returned by the field types read the root table only inside its bounds, for every size and every degree, in builds with and without overflow checks. (The public NTTTable::new does not check the number of powers it is given; a table made from too few is read out of bounds.)", "quantifier": "all derived prime fields, all sizes, all degrees, all draws and call histories", "why_tests_cant": "get_unchecked has no runtime check and out-of-bounds reads need not fail a test; degrees are arbitrary words.", "anchors": ["algebra/src/transformation/ntt_table.rs: transform_monomial, transform_coeff_one_monomial, transform_coeff_neg_one_monomial (199-296)", "algebra_derive/src/ntt.rs"]}
{"id": "C56", "title": "Transform counters under concurrency", "statement": "With counting compiled in, for every interleaving of transforms of native tables, enabling, disabling and clearing in any number of threads: the counter is the number of additions since the last clearing modulo 2^32; every transform that found counting enabled is added exactly once; if counting is never disabled and every thread was started after the enabling, all transforms are counted; nothing is counted before the first enabling. Disabling and clearing do not wait for running transforms: one that has read the flag still adds afterwards. Transforms through the external library, which in the default build are all transforms of 32 and 64 bit fields, are never counted.", "quantifier": "all numbers of threads, all schedules, all relaxed reads of the flag", "why_tests_cant": "Schedules and stale relaxed reads cannot be enumerated by tests.", "anchors": ["algebra/src/transformation/ntt_table.rs: count (152-197), transform_slice (298-310), inverse_transform_slice (330-350)"]}
{"id": "C57", "title": "Circuits are correct whenever the noise that occurs is small", "statement": "For freshly generated keys of any accepted parameters, including the crate's own, every circuit of gates evaluated on encrypted bits decrypts to the value of the circuit, provided the noises that in fact occur in this evaluation (of the rotations, key switchings and roundings) and the noises of the inputs stay within a level that is stable for the decision bound. The worst-case bounds of C52 are one such level.", "quantifier": "all random words and samples, all key types and step orders, all inputs, all circuits of any size and depth, all noise levels", "why_tests_cant": "The noise of a run depends on secret and random data; tests see a few runs and cannot relate failures to noise.", "anchors": ["bool/src/bfhe/evaluate.rs: EvaluationKey::new, nand, and, nor, or, xor, xnor, majority, mux", "fhe_core/src/blind_rotation/mod.rs", "fhe_core/src/key_switch", "fhe_core/src/modulus_switch.rs", "bool/src/bfhe/parameters.rs"]}
{"id": "C58", "title": "Adding, subtracting and scaling ciphertexts", "statement": "Every form of addition, subtraction and multiplication by a polynomial of ring, gadget and RGSW ciphertexts, in coefficient and in transform form, returning, consuming, assigning or writing to a destination of the right shape with any old content, acts on the phases (and so on messages and errors) as the ring operation; the forms agree; the zero constructors encrypt 0; LWE addition and subtraction with plain operators act on the phases wherever the operators are exact. Operands of different bases are rejected by sums and differences; a destination of another shape silently keeps its basis and its remaining elements.", "quantifier": "all fields and sizes, all ciphertexts and keys, all contents of destinations", "why_tests_cant": "The words of ciphertexts and the stale content of destinations are arbitrary.", "anchors": ["lattice/src/rlwe.rs: add_*, sub_*, mul_ntt_polynomial_* (204-318, 752-887)", "lattice/src/gadget/rlwe.rs: add_inplace, sub_inplace, zero, set_zero (85-102, 277-337, 420-433)", "lattice/src/rgsw.rs: add_inplace, sub_inplace, mul_ntt_polynomial_assign (95-108, 248-338)", "lattice/src/lwe.rs: *_component_wise (72-159)"]}
{"id": "C59", "title": "Large rotation noise is improbable", "statement": "Generate a binary or ternary blind rotation key with independent errors that are sub-Gaussian with parameter v (as the errors of the centred binomial sampler are, with v = 10.5, for uniform bytes) and masks of any law. For every ciphertext and table chosen without the key, generation and rotation succeed and the noise added to the table entry is at most T, except with probability at most 2 exp(-T^2/2V), where V is v times the number of products of digits and errors times the square of the largest digit. The centred binomial polynomial sampler gives independent errors of that law.", "quantifier": "all fields, sizes, bases, secrets, ciphertexts, tables and bounds T; the probability is over the draws of the key", "why_tests_cant": "Probabilities such as 10^-40 cannot be estimated by sampling.", "anchors": ["fhe_core/src/blind_rotation/binary.rs", "fhe_core/src/blind_rotation/ternary.rs", "lattice/src/rgsw.rs", "lattice/src/gadget/rlwe.rs", "algebra/src/utils/sample.rs: sample_cbd_field_vec", "algebra/src/polynomial/native_polynomial.rs: random_with_gaussian"]}
{"id": "C60", "title": "Large key switching noise and failing gates are improbable", "statement": "Generate an evaluation key with independent sub-Gaussian errors and masks of any law. For every ciphertext chosen without the key, LWE or RLWE key switching adds a noise of at most T to the phase, except with probability at most 2 exp(-T^2/2V) for an explicit V that grows linearly in the number of digits. For every two encrypted bits chosen without the evaluation key, every two-input gate returns a ciphertext of the right bit with the stated noise, except with probability at most the sum of the bounds for rotation and key switching, provided the rounding of the final modulus switch is within its stated bound (which holds always with the worst-case bound).", "quantifier": "all fields, sizes, bases, step orders, key types, keys, inputs and noise bounds; the probability is over the draws of the evaluation key", "why_tests_cant": "Failure probabilities below 10^-9 cannot be estimated by sampling, and depend on all parameters.", "anchors": ["fhe_core/src/key_switch/lwe.rs", "fhe_core/src/key_switch/rlwe.rs", "bool/src/bfhe/evaluate.rs: EvaluationKey::new, bootstrap, nand, and, nor, or, xor, xnor, majority, mux"]}
{"id": "C61", "title": "Applications get the replies of the same calls on bits", "statement": "An application generates a secret key, builds an encryptor, an evaluator and a decryptor from it and then encrypts bits, evaluates gates on any ciphertexts it already has, and decrypts, in any order and as often as it wants. If the samples stay within the bounds of a stable noise level, no call panics, every decryption returns the bit that the same calls on plain bits would give, and every reported noise is at most the level. The plain gate functions of the crate are those gates.", "quantifier": "all histories of calls of any length, all key, evaluation key and encryption randomness within the bounds, all parameters", "why_tests_cant": "Histories are unbounded; a test runs a few gates on fresh ciphertexts.", "anchors": ["bool/src/key_gen.rs: KeyGen, generate_secret_key", "bool/src/encrypt.rs: Encryptor, encrypt", "bool/src/decrypt.rs: Decryptor, decrypt, decrypt_with_noise", "bool/src/bfhe/evaluate.rs: Evaluator", "fhe_core/src/utils.rs: not, and, nand, or, nor, xor, xnor, majority"]}
{"id": "C62", "title": "Arithmetic on transform forms", "statement": "Polynomials and their transform forms correspond one to one through the two conversions, whether called on the polynomial, on the transform form or on the table. Every form (assigning, consuming, borrowing) of the sum, difference, product (also with an operand that is still a polynomial), negation and multiple of transform forms is the transform form of the same operation on the polynomials modulo X^n + 1, and no call panics on operands of equal length.", "quantifier": "all derived prime fields, all sizes, all polynomials", "why_tests_cant": "Polynomials of 1024 coefficients have far too many values to test; the forms are separate code.", "anchors": ["algebra/src/polynomial/ntt_polynomial.rs: Add, Sub, Mul, Neg, mul_scalar", "algebra/src/polynomial/native_polynomial.rs: into_ntt_polynomial, Sub", "algebra/src/transformation/mod.rs: transform, inverse_transform"]}
{"id": "C63", "title": "Arithmetic modulo the word size", "statement": "With the modulus () the modular operations on u8, u16, u32 and u64 are those of the integers modulo 2^w: reduction is the identity, sums, differences, negations, products and powers return the word of the result, for all operands, and LWE sums and differences with it act on the phases. Division returns the modular quotient. (It does so only when the integer division is exact: the code returns the integer quotient.)", "quantifier": "all word sizes, all operands, all exponents", "why_tests_cant": "Operands and exponents of 64 bits cannot be enumerated.", "anchors": ["algebra/src/reduce/macros.rs: impl_non_reduce_ops_for_primitive (118-222)"]}
{"id": "C64", "title": "The samplers have the documented laws", "statement": "From a generator of independent uniform words: binary vectors are independent fair bits, ternary vectors are independent values that are 0 with probability 1/2 and 1 and -1 with probability 1/4 each, for every length, and so are the secret keys made from them; n draws of the uniform sampler never panic and give every vector of n residues with the same probability, and the probability that k words do not suffice for n draws is at most 2^n (3/4)^k.", "quantifier": "all lengths, all moduli and word sizes, all numbers of words", "why_tests_cant": "Independence and exact uniformity of vectors are statements about astronomically many outcomes.", "anchors": ["algebra/src/utils/sample.rs: sample_binary_field_vec, sample_ternary_field_vec", "algebra/src/random.rs: FieldUniformSampler, FieldBinarySampler, FieldTernarySampler", "lattice/src/utils/sample.rs: sample_binary_values, sample_ternary_values, BinarySampler, TernarySampler", "algebra/src/polynomial/native_polynomial.rs: random", "fhe_core/src/secret_key.rs: create_lwe_secret_key"]}
{"id": "C65", "title": "Comparisons, precomputed factors and low-end digits of field elements", "statement": "Equality, the zero, one and minus-one tests and the order of field elements speak about residues: two elements are equal exactly if they stand for the same residue, and the order is that of the representatives with max the greatest and the default the least. Converting an element to a precomputed factor and back is the identity and multiplying by the factor is the multiplication of the field. Extracting digits from the low end as many times as the basis has digits writes every value below the modulus out in the base, whatever the destination held before.", "quantifier": "all accepted moduli and word widths, all elements, all bases and all data and destinations", "why_tests_cant": "a comparison that is wrong for one representation of a residue is only seen with that representation", "anchors": ["algebra_derive/src/basic.rs: max, default, cmp, eq, is_zero, is_one, is_neg_one", "algebra_derive/src/ntt.rs: to_root, from_root, mul_root", "lattice/src/utils/decompose_basis.rs: decompose_lsb_bits_inplace"]}
{"id": "C66", "title": "A switching key with uniform masks makes the rounding of a bootstrapping small", "statement": "If the masks of a switching key are uniform, the ciphertext that results from switching a given ciphertext has exactly uniform mask entries, provided that the digits of the given mask have no common root; the next modulus switch then moves the phase by more than 1/2 + T only with probability 2 exp(-T^2/2V), V at least the squared length of the secret key over 12. So with the order blind rotation, key switching, modulus switching, bits that are encrypted before an evaluation key is drawn, combined by any number of two-input or majority gates and decrypted give the values of the gates except with an explicit probability, unless the digits of an accumulator have a common root; nothing is assumed about the rounding.", "quantifier": "all accepted parameters with that order of steps, all secret keys, all inputs and tables, all error laws with sub-Gaussian tails, all T", "why_tests_cant": "the failure probability is far too small to be seen in any number of runs, and uniformity is a statement about all masks", "anchors": ["lattice/src/rlwe.rs: generate_random_zero_sample", "fhe_core/src/key_switch/rlwe.rs: generate, key_switch_for_rlwe", "fhe_core/src/modulus_switch.rs: lwe_modulus_switch", "bool/src/bfhe/evaluate.rs: nand, and, or, nor, xor, xnor, majority"]}
{"id": "C67", "title": "Encryption hides messages as well as learning with errors is hard", "statement": "With uniform masks, the ciphertext of a message has exactly the law of a learning-with-errors sample whose second part is shifted by the encoded message. Consequently an observer who picks pairs of messages, depending on an auxiliary value that may depend on the secret key (such as the evaluation key) and on the ciphertexts seen so far, and who is given either always the encryption of the left or always that of the right message, tells the two cases apart at most as well as two explicitly given observers, who do the same with given samples and without the key, together tell learning-with-errors samples from uniform ones.", "quantifier": "all observers, adaptive choices of messages, numbers of queries, laws of keys and auxiliary values, error laws in the range tolerated by decoding, all accepted moduli and dimensions", "why_tests_cant": "Secrecy is a statement about probabilities of all observers; no run of the program shows it.", "anchors": ["fhe_core/src/secret_key.rs: encrypt (150-177)", "lattice/src/lwe.rs: generate_random_zero_sample (327-351)", "fhe_core/src/plaintext.rs: encode (78-92)"]}
{"id": "C68", "title": "Evaluation keys hide the keys inside them as well as learning with errors is hard", "statement": "A generated bootstrapping key for given LWE key digits (binary or ternary), and a generated switching key from a given ring key (RLWE or LWE form), are computed from samples of (ring) learning with errors without the secret key under which they are made. Consequently an observer, who may know an auxiliary value that depends on that secret key, tells the generated key for one choice of the contained secret from the one for another choice of the same length at most as well as two explicitly given observers together tell such samples from uniform ones.", "quantifier": "all observers, pairs of contained keys of the same length, laws of secret keys and auxiliary values, laws of errors, all NTT primes, bases and sizes accepted by the code", "why_tests_cant": "Secrecy is a statement about probabilities of all observers; no run of the program shows it.", "anchors": ["fhe_core/src/blind_rotation/binary.rs: generate (72-104)", "fhe_core/src/blind_rotation/ternary.rs: generate (97-158)", "fhe_core/src/key_switch/rlwe.rs: generate (24-118)", "fhe_core/src/key_switch/lwe.rs: generate (30-116)", "lattice/src/rgsw.rs: NTTRGSW::generate_random_zero_sample, generate_random_one_sample (343-392)"]}
{"id": "C69", "title": "Error probability of the primality test", "statement": "For a composite n, probably_prime(n, rounds) with uniformly random witnesses returns true with probability at most (1/4)^rounds, as its documentation promises.", "quantifier": "all composite moduli of all widths, all round counts, uniform independent witnesses", "why_tests_cant": "A test runs the check on a few numbers; the bound is about the fraction of all witnesses of every composite, and composites on which the test fails are rare and not of a form one would try.", "anchors": ["algebra/src/utils/prime.rs: probably_prime", "algebra_derive/src/prime.rs: is_prime_field"]}
{"id": "C70", "title": "The random search for transform roots practically never fails", "statement": "For a prime field and a transform size n whose double divides q - 1, the search for a primitive root, the generation of the transform table and a request for the table succeed except with probability at most 2^-100 over the random candidates.", "quantifier": "all derived prime fields, all sizes with 2n dividing q - 1, every state of the cache that is not poisoned, uniform candidates", "why_tests_cant": "A failure of probability 2^-100 is never seen in a test, and a search with too few good candidates in some field would pass tests in the others.", "anchors": ["algebra_derive/src/ntt.rs: try_primitive_root, generate_ntt_table, get_ntt_table"]}
{"id": "C71", "title": "Gaussian errors have the law the failure bounds rely on", "statement": "Let the normal generator deliver independent symmetric 53-bit numbers whose exponential moments are at most those of a normal law of deviation tau. Then the errors of fresh ciphertexts and switching keys and the coefficients of error polynomials are independent, each distributed as a delivered number below six deviations, rounded to the nearest integer, up to the probability that the delivered numbers are rejected too often; these errors are sub-Gaussian with parameter (tau + 1/2)^2. Normal numbers rounded towards zero to finite precision are such deliveries. With the default parameters, whose errors are of this kind, any g gates on fresh ciphertexts decrypt correctly except with probability 6 g exp(-58).", "quantifier": "all moduli, deviations, polynomial lengths, numbers of deliveries, and laws of the generator as described; for the default parameters all secret keys, bits, gates and masks", "why_tests_cant": "Sampled errors of a test look alike for many laws; the tail that decides about failures of probability below 2^-80 is never sampled.", "anchors": ["algebra/src/random.rs: FieldDiscreteGaussianSampler", "lattice/src/utils/sample.rs: DiscreteGaussian", "algebra/src/polynomial/native_polynomial.rs: random_with_gaussian", "bool/src/bfhe/parameters.rs: DEFAULT_TERNARY_128_BITS_PARAMETERS"]}
{"id": "C72", "title": "No panic before decryption", "statement": "For every parameter set with keys, on ciphertexts with the right number of words and any content (received, corrupted or too noisy, words above the modulus included) no gate panics; results are ciphertexts modulo q and depend only on the residues of the words. So every history of encryptions and gates runs to the end. Encryption panics exactly when the drawn deviate is below -q. Decryption returns the message nearest to the phase if the message type holds it, with the distance as noise, and panics exactly if the type does not; to a bit it panics exactly when the phase lies between 3q/8 and 7q/8.", "quantifier": "all parameter sets that allow keys, all keys and their randomness, all ciphertexts of the right length, all histories, all deviates and message types", "why_tests_cant": "A test runs on ciphertexts made by the library; a panic on one corrupted or unlucky ciphertext in 2^64 stops a server and is not seen.", "anchors": ["bool/src/bfhe/evaluate.rs: Evaluator, bootstrap", "bool/src/encrypt.rs: encrypt", "bool/src/decrypt.rs: decrypt, decrypt_with_noise", "fhe_core/src/secret_key.rs: encrypt, decrypt"]}
{"id": "C73", "title": "Which accepted parameters have keys", "statement": "Accepting a parameter tuple does not check the chosen steps against the rest. Secret and evaluation keys can be generated, for all randomness, exactly for the tuples that fit their steps: a modulus switch before LWE key switching needs a ring key that is not Gaussian and digits of 1 to log q bits; ring key switching needs an LWE dimension of at most the ring dimension and digits of 1 bit up to the length of Q; without key switching the dimensions are equal and the ring key is not Gaussian. For every other accepted tuple key generation panics whatever the randomness.", "quantifier": "all parameter tuples accepted for gates (LWE dimension at least 2), fields with transform tables up to the ring dimension, all randomness of keys", "why_tests_cant": "Tests use the two built-in sets, which fit; a tuple that is accepted and panics later only shows when that combination is tried.", "anchors": ["fhe_core/src/parameter.rs: Parameters::new", "fhe_core/src/secret_key.rs: SecretKeyPack::new", "bool/src/bfhe/evaluate.rs: EvaluationKey::new", "fhe_core/src/key_switch/lwe.rs: generate", "fhe_core/src/key_switch/rlwe.rs: generate"]}
{"id": "C74", "title": "Programs cannot tell the generator from true randomness", "statement": "A program that uses the generator with a uniform random seed for at most 4m words, adaptively and with any mixture of requests, never panics, and every event of its results has the probability that it has with independent uniform 32-bit words, up to the advantage of one explicit test against AES-128 as a random permutation (from m known plaintexts) plus m(m-1)/2^129. In particular the laws of the samplers, which are stated for uniform words, hold with the generator up to this bound.", "quantifier": "all adaptive programs with a bound on the words they use, all events, both architectures, all m with 4m < 2^66 - 64", "why_tests_cant": "A test sees finitely many outputs of finitely many seeds; indistinguishability is a statement about all programs and the whole law of the seed.", "anchors": ["algebra/src/utils/prg.rs: Prg::new, from_seed, next_u32, next_u64, fill_bytes, random_*", "algebra/src/utils/aes.rs: Aes::encrypt_many_blocks"]}
{"id": "C75", "title": "With a fresh evaluation key the gates fail with negligible probability, without exceptions", "statement": "If the masks of an evaluation key are uniform, the mask of the accumulator after a blind rotation is, up to an explicit statistical distance, uniform over the ring elements, whatever the secret key, the input and the table of the gate; so its digits have a common root only with an explicit, negligible probability, and the modulus switch that follows rounds the phase by more than 1/2 + T only with the probability of a Gaussian tail. Bits that are encrypted before an evaluation key is drawn, combined by any number of two-input or majority gates and decrypted therefore give the values of the gates except with an explicit probability, for every order of the steps and with no condition on what happens inside; with the default parameters and their noise the probability for g gates is at most 7 g exp(-58).", "quantifier": "all accepted parameters with all three orders of steps, all secret keys, all masks and noises of the inputs, all numbers of gates, all error laws with sub-Gaussian tails, all T", "why_tests_cant": "The probability is far too small to be seen in tests, and the statement is about the joint law of millions of sampled words.", "anchors": ["bool/src/bfhe/evaluate.rs: EvaluationKey::new, nand, and, or, nor, xor, xnor, majority, bootstrap", "fhe_core/src/blind_rotation/mod.rs, binary.rs, ternary.rs: generate, blind_rotate", "fhe_core/src/key_switch/rlwe.rs: generate, key_switch_for_rlwe", "fhe_core/src/modulus_switch.rs: lwe_modulus_switch"]}
{"id": "C76", "title": "The build with the external transform library computes the same results as the build without it", "statement": "With the default feature on, a field of 32 or 64 bits asks the external library for a plan of the requested size and its modulus, reports an error if there is none and otherwise never panics; narrower fields ignore the library. If the library keeps its documented contract (a plan evaluates a polynomial at the n roots of X^n + 1 in some order, and back), then for every size n >= 2: transforming and transforming back are inverse to each other; the evaluation forms of the two builds differ only by a fixed reordering of their entries; products and inverses of polynomials are the same words in both builds; the monomial functions agree with the transform of the monomial in both; converting to and from a root and multiplying by one gives the same words in both.", "quantifier": "all supported moduli, all sizes, all libraries that keep the contract, all polynomials, all degrees below 2n, all roots", "why_tests_cant": "Tests run one build with one version of the library, on some polynomials; agreement is needed for every polynomial and plan.", "anchors": ["algebra/src/transformation/concrete.rs: ConcreteTable::new, root, transform_slice, inverse_transform_slice, transform_monomial, transform_coeff_one_monomial, transform_coeff_neg_one_monomial", "algebra_derive/src/ntt.rs: generate_ntt_table, from_root, to_root, mul_root, mul_root_assign", "algebra/src/transformation/mod.rs: AbstractNTT, MonomialNTT"]}
{"id": "C77", "title": "All spellings of an operation agree", "statement": "For every modulus type (word, Barrett, Shoup factor, power of two, native wrapping, BabyBear, Goldilocks) the assigning form of each operation stores exactly what the value form returns, and panics exactly when it panics, for all words. The operators of a derived field and of byte blocks, by value, by reference and assigning, agree in the same way. Sums, differences and scalar multiples of polynomials are the same lists whichever operand is borrowed, consumed or overwritten, and products do not depend on which operand is consumed. A field type that keeps the provided methods of the traits computes the same fused products as a derived one, up to the documented lazy range.", "quantifier": "all widths, moduli and words, canonical or not; all polynomials of equal or different lengths; for products all canonical polynomials of size 2^k >= 2", "why_tests_cant": "The forms are separate pieces of code, generated by macros for many types; tests exercise some of them on some words.", "anchors": ["algebra/src/reduce/macros.rs: *_reduce_assign", "algebra/src/modulus/barrett/ops.rs, barrett/internal_macros.rs, shoup/internal_macros.rs, powof2/internal_macros.rs, baby_bear/ops.rs, goldilocks/ops.rs: *_assign", "algebra_derive/src/ops.rs: AddAssign, SubAssign, MulAssign, DivAssign", "algebra/src/field/mod.rs: FheField provided methods", "algebra/src/polynomial/native_polynomial.rs: Add, Sub, Mul and their assigning and borrowed forms", "algebra/src/utils/block.rs: BitXorAssign, BitOrAssign, BitAndAssign"]}
{"id": "C78", "title": "Code for x86 computes what the portable code computes", "statement": "On x86 the addition with carry and the subtraction with borrow of 32- and 64-bit words go through processor intrinsics, and the Goldilocks reduction through inline assembly. They return the same words and the same flags as the portable code, are exact, and panic on the same inputs, so no result depends on the architecture.", "quantifier": "all words, all carries, every width; all pairs of words for the assembly", "why_tests_cant": "A test run exercises one architecture, on sampled words.", "anchors": ["algebra/src/primitive/widening/carrying_add.rs: addcarry_u32, addcarry_u64", "algebra/src/primitive/widening/borrowing_sub.rs: subborrow_u32, subborrow_u64", "algebra/src/modulus/goldilocks/mod.rs: add_no_canonicalize_trashing_input, reduce96, reduce128"]}
{"id": "C79", "title": "Deriving a field accepts exactly the supported declarations", "statement": "The Field macro accepts exactly the tuple structs with one word of type u8, u16, u32 or u64 and an integer modulus attribute with a value from 2 to 2^(w-2)-1, the first such attribute deciding; any other declaration is an error at compile time. The constants of an accepted type (reciprocal, largest element, minus one) belong to the declared modulus, and the other macros accept the declaration and read the same width and modulus.", "quantifier": "all declarations: any attributes in any order, any fields, any literal", "why_tests_cant": "Tests compile a few declarations; a rejected declaration cannot be part of a test at all.", "anchors": ["algebra_derive/src/ast.rs: Input::from_syn, Field::from_syn", "algebra_derive/src/attr.rs: get, parse_modulus_value, check_leading_zeros", "algebra_derive/src/field.rs: derive", "algebra_derive/src/ops.rs: impl_modulus_config", "algebra_derive/src/basic.rs: basic, impl_neg_one"]}
{"id": "C80", "title": "Work spaces never influence results", "statement": "The products, rotations and key switchings write their intermediate values into spaces that are made once and used again and again. Whatever the spaces hold, from earlier calls or otherwise, a call returns what it returns with new spaces, and panics on the same inputs; any sequence of calls with the same spaces gives the replies that each call gives alone. So the theorems on phases, which speak about the values only, hold for the code with its spaces.", "quantifier": "all contents of the spaces, all sequences of calls of any length, all keys, inputs, bases and dimensions", "why_tests_cant": "Tests start with new spaces of zeros or compare against values computed with the same spaces; a value left over from an earlier call shows up only in some histories.", "anchors": ["lattice/src/utils/space.rs: PolynomialSpace, DecompositionSpace, NTTRLWESpace, NTTRGSWSpace, RLWESpace", "lattice/src/rlwe.rs: mul_assign_ntt_rgsw, mul_ntt_rgsw_inplace, mul_monic_monomial_sub_one_inplace, add_assign_gadget_rlwe_mul_polynomial, add_assign_gadget_rlwe_mul_polynomial_inplace_fast, sub_assign_gadget_rlwe_mul_polynomial_inplace", "lattice/src/gadget/rlwe.rs: mul_polynomial_inplace, mul_polynomial", "fhe_core/src/blind_rotation/binary.rs: blind_rotate", "fhe_core/src/blind_rotation/ternary.rs: blind_rotate", "fhe_core/src/key_switch/rlwe.rs: key_switch_for_rlwe, key_switch_for_lwe"]}
{"id": "C81", "title": "Gates may be called from any number of threads", "statement": "A program starts an application in one thread, which generates its keys, and then calls the encryptor, the evaluator and the decryptor from any number of threads at the same time, one of the gates forking two computations itself. In every schedule there is no data race on the table of transforms, no call changes the shared memory, each thread gets the ciphertexts, replies or panic that its calls give when made alone, no thread waits for another one, and each thread ends after a number of its own steps that does not depend on the others. In general, in any schedule of any computations, also unprepared ones, a thread that ends without a panic has the result of the sequential code, a table is never lost or replaced, at most one thread modifies the map, some thread can always go on, and every schedule ends; if no generation of a table fails, no thread panics because of the lazy initialisation. The same holds for several applications with any parameters, once they have been started one after the other. A panic in a generation is never lost: it poisons the mutex for good, and threads that start after it get the result of running alone with the tables that were there before, panicking exactly when they need another one. Without preparation two transforms of different sizes can race.", "quantifier": "all schedules, all numbers of threads, all histories of calls of all lengths, all parameters and keys, all outcomes of the random table generation", "why_tests_cant": "A test runs a few schedules of a few calls; a race on the lazily filled table appears in few of them and usually without visible effect.", "anchors": ["algebra_derive/src/ntt.rs: get_ntt_table, init_ntt_table, generate_ntt_table", "bool/src/bfhe/evaluate.rs: Evaluator, mux, rayon::join", "bool/src/encrypt.rs: Encryptor", "bool/src/decrypt.rs: Decryptor", "fhe_core/src/secret_key.rs: SecretKeyPack::new", "fhe_core/src/blind_rotation/mod.rs: BlindRotationKey", "fhe_core/src/key_switch/rlwe.rs: KeySwitchingRLWEKey"]}
{"id": "C82", "title": "Gates are right with the second parameter set", "statement": "With the second parameter set of the crate, which switches the modulus before the key: a secret key is drawn, bits are encrypted with noises that the sampler of the parameters delivers, an evaluation key with Gaussian errors is drawn, any number g of gates is applied to the ciphertexts, and the results are decrypted. All results are the values of the gates, except with probability 2^-400 + 5 g exp(-9.8), and exp(-9.8) is less than 1/13700. In general, for all accepted parameters and all orders of the steps, the noises of the rotation and of the key switching are bounded together like one normal variable whose variance is the sum of theirs, and a result has at most this noise plus the rounding.", "quantifier": "all parameters that meet the conditions on the moduli, all laws of errors with bounded exponential moments, all secret keys (for the second parameter set: all with at most 496 of 512 entries other than zero, and the probability that a drawn key has more), all numbers of gates, all masks and noises of the ciphertexts", "why_tests_cant": "The noise of a gate depends on millions of random errors in the evaluation key; tests see a few keys and cannot show how rare failures are.", "anchors": ["bool/src/bfhe/parameters.rs: CUSTOM_TERNARY_128_BITS_PARAMETERS", "bool/src/bfhe/evaluate.rs: EvaluationKey::new, EvaluationKey::bootstrap, Evaluator", "fhe_core/src/key_switch/lwe.rs: KeySwitchingLWEKey", "fhe_core/src/blind_rotation/ternary.rs: TernaryBlindRotationKey", "fhe_core/src/modulus_switch.rs: lwe_modulus_switch", "fhe_core/src/secret_key.rs: SecretKeyPack::new"]}
{"id": "C83", "title": "Builds without overflow checks", "statement": "In a build without overflow checks, where the operators wrap around: adding two residues modulo a word is right exactly when their sum fits the word. The extended greatest common divisor always ends and returns the greatest common divisor; a modular inverse is refused exactly when there is none, for every modulus, and is right for moduli below a quarter of the word range (above, it can be wrong without notice). Ciphertexts of 1 and of the negated secret in coefficient form are right for every basis, also those whose generation panics in a checked build. A centred binomial draw is right when the modulus is at least 21; below it can be a wrong residue. A Goldilocks value is negated correctly exactly when it is at most the modulus.", "quantifier": "all word sizes, all operands, all moduli, all bases, all keys and draws", "why_tests_cant": "Tests run in the checked build, where these inputs panic; the wrapped results appear only in the other build and only for special operands.", "anchors": ["algebra/src/reduce/macros.rs: add_reduce, try_inv_reduce", "algebra/src/utils/gcd.rs: extended_gcd", "algebra/src/utils/sample.rs: sample_cbd_field_vec", "algebra/src/modulus/goldilocks/ops.rs: neg_reduce", "lattice/src/gadget/rlwe.rs: generate_random_one_sample, generate_random_neg_secret_sample", "lattice/src/rgsw.rs: generate_random_one_sample"]}
{"id": "C84", "title": "Where the code departs from its documentation, exactly", "statement": "For the functions whose documented result does not always come out, the inputs for which it does are given exactly. probably_prime, from 64 on, answers true if and only if no prime up to 53 divides the number and every witness is a strong liar for it, up to and including the first one that needs a squaring. Baby Bear exponentiation is right exactly for exponents other than 0; the Barrett dot product exactly when the entries after the last full block of 16 contribute zero; Goldilocks reduction exactly for words other than the modulus, Goldilocks negation panics exactly above the modulus, a sum is canonical exactly when it is below the modulus or overflows the word. A centred binomial draw panics exactly when the second half has more than q ones more than the first. decompose_at writes a digit exactly as long as something of the value is left. Native division is modular division exactly when it leaves no remainder. transform_monomial panics exactly when coefficient and degree are not zero and (2n - 1) d overflows 64 bits. is_primitive_root is wrong exactly for the modulus 2 and the element 1. The inverse of a polynomial is right exactly when there is one. Polynomials of one coefficient cannot be transformed back or multiplied. Gadget samples of 1 and -s in coefficient form panic exactly when the power of the basis after the last does not fit the word. With accepted parameters every decryption panics exactly when the two moduli are equal.", "quantifier": "all words, moduli, lengths, witnesses, polynomials, tables, bases, draws, keys and ciphertexts", "why_tests_cant": "A boundary between right and wrong inputs is a statement about all inputs on both sides; the exceptional inputs are rare.", "anchors": ["algebra/src/utils/prime.rs: probably_prime", "algebra/src/modulus/baby_bear/ops.rs: exp_reduce", "algebra/src/modulus/barrett/internal_macros.rs: dot_product_reduce", "algebra/src/modulus/goldilocks/ops.rs: reduce, neg_reduce, add_reduce", "algebra/src/utils/sample.rs: sample_cbd_field_vec", "algebra_derive/src/decomposable_field.rs: decompose_at", "algebra_derive/src/ntt.rs: is_primitive_root", "algebra/src/transformation/ntt_table.rs: transform_monomial, inverse_transform", "algebra/src/polynomial/native_polynomial.rs: inv", "lattice/src/gadget/rlwe.rs: generate_random_one_sample", "fhe_core/src/parameter.rs: Parameters::new"]}
{"id": "C85", "title": "Any program over polynomials computes in the ring", "statement": "Take any expression built from polynomials with reduced coefficients by addition, subtraction, negation, scaling, multiplication (of coefficient forms, of transform forms, and mixed), fused multiply-add, lazily reduced accumulation, and the conversions between the forms. Running it with the library never panics, every intermediate and final result is within the documented range of its form, and the result is the element of Z_q[X]/(X^n+1) that the expression denotes. Two expressions return the same words exactly if they denote the same ring element, so every algebraic law of the ring holds word for word, however the expressions mix the forms.", "quantifier": "all expressions of any size, all polynomials of length n = 2^k with k > 0, all prime moduli and generated tables", "why_tests_cant": "Tests run a few fixed expressions; that the ranges kept by one operation are those required by the next, for every nesting, is an induction over expressions.", "anchors": ["algebra/src/polynomial/native_polynomial.rs: Polynomial", "algebra/src/polynomial/ntt_polynomial.rs: NTTPolynomial, ntt_add_mul_assign, ntt_add_mul_assign_fast"]}
{"id": "C86", "title": "Any program over ring ciphertexts: message and noise", "statement": "Take any program built from RLWE and RGSW ciphertexts, in coefficient and in transform form, by addition, subtraction, multiplication with polynomials, rotation by monomials, fused multiply-add, external products, products of RGSW ciphertexts and conversions. Running it never panics, and the result is a ciphertext of the value of the same program over the messages, with an error bounded by a number computed from the program and the bounds of the inputs alone: sums add, X^r - 1 doubles, a product with p multiplies by the sum of the absolute values of the coefficients of p, and an external product multiplies the error of the ring ciphertext by that norm of the RGSW message and adds 2 len n (2^bits - 1) times the RGSW error. The LWE sample extracted from the result has the constant coefficient of the message as its phase, up to that bound. Selecting between two ciphertexts by an encrypted bit gives the chosen message with the noise of the inputs plus one external product, and a look-up in a table of 2^d ciphertexts by d encrypted bits adds d of them.", "quantifier": "all programs of any size, all inputs that are ciphertexts under one key, all bases, prime moduli, tables and dimensions n = 2^k with k > 0; all tables and indices", "why_tests_cant": "Noise growth through a composition cannot be observed on samples, and the bound must hold for every error within the input bounds.", "anchors": ["lattice/src/rlwe.rs: RLWE, NTTRLWE", "lattice/src/rgsw.rs: RGSW, NTTRGSW", "lattice/src/gadget/rlwe.rs: GadgetRLWE, NTTGadgetRLWE"]}
{"id": "C87", "title": "Exponentiation with a signed exponent type", "statement": "exp_reduce accepts signed integer types as exponent. A non-negative exponent gives the power, as with unsigned types (Baby Bear with exponent zero excepted, see C06). A negative exponent never panics, but it is not read as an inverse power: the exponent -(2^t k), k odd, of a type with E bits gives the power 2^(E+t) - 2^t k of the base. It is the inverse power exactly if the base raised to 2^(E+t) is one, that is, if the order of the base is a power of two at most 2^(E+t). Modulo 2^j with odd base this holds for every exponent type with E + 1 >= j; modulo 61, and modulo the Goldilocks prime, it fails already for exponent -1.", "quantifier": "all signed exponent types of E >= 2 bits, all their values, all reduced bases and all four modulus kinds", "why_tests_cant": "The exponent type is generic and the number of exponents is unbounded; tests use unsigned exponents only, so the meaning of negative ones is never observed.", "anchors": ["algebra/src/modulus/barrett/ops.rs: exp_reduce", "algebra/src/modulus/powof2/internal_macros.rs: exp_reduce", "algebra/src/modulus/goldilocks/ops.rs: exp_reduce", "algebra/src/modulus/baby_bear/ops.rs: exp_reduce", "algebra/src/primitive/bits.rs: Bits"]}
{"id": "C88", "title": "Number of transforms per operation, and what it reveals", "statement": "The number of number theoretic transforms an operation makes, which the library can count, is a formula in the parameters and in public data. A product of polynomials makes two forward and one inverse transform, an external product with a ciphertext in evaluation form one per element and two back. An evaluation key takes a number that the parameters determine, whatever the secret key and the randomness. A bootstrap makes 2 L forward and two inverse transforms for every mask word that is not zero after the switch to modulus 2N (L digits of the basis), and none for the others, plus the fixed number of the ring key switching, if that is used. A gate with two inputs and the majority gate make one bootstrap, the multiplexer three, negation none. Hence a gate on the same ciphertexts makes the same number of transforms under any two keys for the same parameters, no gate makes more than the number for a full mask, and the counter of a thread reads that number modulo 2^32.", "quantifier": "all parameters, secret keys, random draws and ciphertexts; all word widths and tables", "why_tests_cant": "The work of an operation is not part of its result, so a test of results does not see a transform that is missing, repeated or made only for some secrets; the claim compares all pairs of keys.", "anchors": ["algebra/src/transformation/ntt_table.rs: transform_slice, inverse_transform_slice, get_ntt_count", "lattice/src/rlwe.rs: mul_small_ntt_rgsw_inplace", "lattice/src/gadget/rlwe.rs: mul_polynomial", "fhe_core/src/blind_rotation/binary.rs: blind_rotate", "fhe_core/src/blind_rotation/ternary.rs: blind_rotate, generate", "fhe_core/src/key_switch/rlwe.rs: generate, key_switch_for_rlwe", "fhe_core/src/secret_key.rs: SecretKeyPack::new", "bool/src/bfhe/evaluate.rs: EvaluationKey::new, bootstrap, Evaluator"]}
{"id": "C89", "title": "Laws under which a circuit may be rewritten without changing any ciphertext", "statement": "Gates are deterministic functions of few combinations of their operands, so some laws of Boolean algebra hold for ciphertexts bit for bit, not only after decryption. nand, and, or and nor depend only on the sum of their operands modulo q, xor and xnor only on the difference; the operands of nand, and, or, nor and majority may be given in any order; and is majority with a trivial false; two negations cancel; a negated selector swaps the alternatives of mux; xor of two negations is xor of the swapped operands; xor of a ciphertext with itself is the same ciphertext for all ciphertexts. Circuits that arise from each other by these laws, applied anywhere and any number of times, give one and the same ciphertext on all inputs, however noisy. Other laws of Boolean algebra are not of this kind: swapped operands of xor, the negation of and against nand, and de Morgan's law give different ciphertexts.", "quantifier": "all keys, all ciphertexts with any noise and content, all circuits of any size and all sequences of rewritings", "why_tests_cant": "A test compares decryptions, or ciphertexts for one key and a few inputs; that two evaluations agree in every word for all keys, noises and circuits, also where decryption would be wrong, is beyond tests.", "anchors": ["bool/src/bfhe/evaluate.rs: Evaluator::not, nand, and, or, nor, xor, xnor, majority, mux", "lattice/src/lwe.rs: add_reduce_component_wise_ref, add_reduce_inplace_component_wise, sub_reduce_component_wise_ref, neg_reduce"]}
{"id": "C90", "title": "Bootstrapping with any table computes that table, and programs of lookups compute their functions", "statement": "`bootstrap` takes a ciphertext and a table of the caller. For every table it returns a ciphertext whose phase is the table entry at the rounded position of the input's phase on a circle of twice the ring dimension, read with opposite sign on the second half of the circle, plus an eighth of the ring modulus, scaled to the ciphertext modulus, up to a noise that does not depend on the noise of the input. Hence for every function from 0..T/2-1 to 0..T-1 there is a table with which an encryption of u becomes an encryption of f(u), as long as the noise of the input is below half a step; two ciphertexts can be combined into one argument with a scalar multiplication. Programs of such lookups, of any size, encrypted, run and decrypted with plaintext modulus T under freshly generated keys give the value of the program. With Gaussian noise a lookup is wrong at most with a computed probability. Entries half a turn apart are negatives of each other, which is the only restriction on what a table can express.", "quantifier": "all valid keys, parameter sets, orders of the steps, ciphertexts, tables, functions and programs, and all samples within the stated bounds", "why_tests_cant": "The tests call bootstrapping only through the gates, with their five tables. That arbitrary tables are read at the right place with the right sign for every phase, key and noise, and that noise does not build up in chains of lookups, cannot be sampled.", "anchors": ["bool/src/bfhe/evaluate.rs: EvaluationKey::bootstrap, Evaluator::bootstrap", "fhe_core/src/blind_rotation: blind_rotate", "lattice/src/lwe.rs: add_assign_rhs_mul_scalar_reduce", "fhe_core/src/secret_key.rs: LWESecretKey::encrypt, decrypt"]}
{"id": "C91", "title": "A key decrypts ciphertexts of another key to uniformly random messages", "statement": "A message encrypted with one secret key and decrypted with a different one gives every message with the same probability, exactly, whatever the message and the noise are: with binary or ternary keys it is enough that one word differs. In a history of encryptions, with messages that depend on the earlier replies of the wrong key, the replies are independent and uniform. With two independently generated keys the replies are uniform up to the probability that the keys are equal, at most 2^-n for binary and (3/8)^n for ternary keys. So with the plaintext modulus 4 and the Boolean message type, decryption with a wrong key returns false and true with probability 1/4 each and panics with probability 1/2; it never silently returns anything that depends on the message. The condition for keys of arbitrary words is exact: if all words differ by multiples of 2q/T, then the wrong key gets the lowest bit of every message.", "quantifier": "all pairs of different keys, messages, laws of the noise within the decryption range, message types, histories of any length and parameters", "why_tests_cant": "A test with a wrong key sees single outcomes; that the law is exactly uniform and independent of the message, for all pairs of keys and all noise, is a statement about distributions.", "anchors": ["fhe_core/src/secret_key.rs: LWESecretKey::encrypt, decrypt", "bool/src/encrypt.rs: Encryptor::encrypt", "bool/src/decrypt.rs: Decryptor::decrypt", "fhe_core/src/plaintext.rs: decode"]}
{"id": "C92", "title": "Whoever gets chosen ciphertexts decrypted gets the key", "statement": "Decryption accepts every ciphertext of the right dimension, also ones that were never encrypted. Therefore the replies of Boolean decryption to n fixed ciphertexts determine a binary or ternary secret key of dimension n completely, for every key; it is even enough to know which of 2n decryptions panicked. A holder of the key must not decrypt, or reveal whether decryption succeeds, for ciphertexts of others.", "quantifier": "all binary and ternary keys, dimensions and parameters with a plaintext modulus of at least 4", "why_tests_cant": "Tests decrypt only what they encrypted. That fixed queries determine every key is a statement about all keys.", "anchors": ["fhe_core/src/secret_key.rs: LWESecretKey::decrypt", "fhe_core/src/plaintext.rs: decode, Shrink::shrink", "bool/src/decrypt.rs: Decryptor::decrypt"]}
{"id": "C93", "title": "Ciphertexts of another dimension than the key", "statement": "A ciphertext carries its own dimension, which the evaluator does not compare with that of its key. Gates panic exactly if the dimensions of their operands differ. If they agree on a wrong dimension, every gate succeeds: it behaves as if the operands were cut off, or filled with zeros, to the dimension of the key. If the last step is the LWE key switching the result is then an ordinary ciphertext and the mistake is never noticed; otherwise the result keeps the dimension of the operands (with words of the switched operand beyond those of the key) and its decryption panics. Decryption panics on every ciphertext of another dimension than the key.", "quantifier": "all keys of accepted parameter sets, all gates, all dimensions, all words", "why_tests_cant": "The mistake needs two parameter sets, which no test combines; that nothing is noticed is a statement about all ciphertexts.", "anchors": ["bool/src/bfhe/evaluate.rs: EvaluationKey::bootstrap, gates", "fhe_core/src/blind_rotation/binary.rs: blind_rotate", "fhe_core/src/blind_rotation/ternary.rs: blind_rotate", "fhe_core/src/modulus_switch.rs: lwe_modulus_switch_inplace", "lattice/src/lwe.rs: add_reduce_component_wise_ref", "fhe_core/src/secret_key.rs: LWESecretKey::decrypt"]}
{"id": "C94", "title": "Gates with the evaluation key of another secret key", "statement": "Nothing in a ciphertext or an evaluation key says which secret key it belongs to. If one operand of a gate was encrypted with another secret key than the one of the evaluation key, the gate still returns a ciphertext without any error, and what the owner of the evaluation key decrypts is a fair coin: exactly uniform, whatever the message, the position of the operand, the other operands and the law of the encryption noise are. So the mistake reveals nothing and is only visible as random results.", "quantifier": "all keys of accepted parameter sets whose noise leaves the decryption of a refreshed bit correct, all pairs of different keys with digits -1, 0 and 1, all bootstrapped gates of two and three operands but mux, all positions, messages, other operands and noise laws", "why_tests_cant": "That a result is exactly uniform is a statement about a probability law over all masks; a test sees samples for one pair of keys.", "anchors": ["bool/src/bfhe/evaluate.rs: EvaluationKey::bootstrap, gates", "fhe_core/src/secret_key.rs: LWESecretKey::encrypt, LWESecretKey::decrypt", "fhe_core/src/modulus_switch.rs: lwe_modulus_switch", "fhe_core/src/blind_rotation/ternary.rs: blind_rotate"]}
{"id": "C95", "title": "Sums of many fresh ciphertexts decrypt to the sum of the messages, except with a probability that falls with the square of the margin", "statement": "A program encrypts any number of messages one after the other and adds each ciphertext to a running sum, subtracts it, or adds a multiple of it. The result decrypts to the sum of the messages with their factors modulo the plaintext modulus t, except with probability at most 2 exp(-T^2/2V): T is q/2t less the error of the ciphertext it started from, and V is the parameter of the encryption errors times the sum of the squares of the factors. The errors of the rounded and truncated normal sampler have the parameter (sigma + 1/2)^2. So the failure probability grows with the sum of the squares, not with the square of the sum as the worst case would.", "quantifier": "all lists of terms (addition, subtraction, multiples by any word), messages, keys, dimensions, parameters, start ciphertexts and sub-Gaussian laws of the encryption errors", "why_tests_cant": "A failure probability of 2^-40 does not show up in tests, and a test with fixed terms does not settle other lists of factors.", "anchors": ["lattice/src/lwe.rs: add_reduce_inplace_component_wise, sub_reduce_inplace_component_wise, add_assign_rhs_mul_scalar_reduce", "fhe_core/src/secret_key.rs: LWESecretKey::encrypt, decrypt", "lattice/src/utils/sample.rs: DiscreteGaussian"]}
{"id": "C96", "title": "Masks practically never repeat, and a repeated mask gives the difference of the messages away", "statement": "In a history of N encryptions with one key, whose messages may depend on all earlier ciphertexts, two ciphertexts have the same mask with probability at most N(N-1)/2 divided by q^n, so encryption is randomised and ciphertexts of the same message differ. The other direction shows what this protects: if a faulty generator does repeat a mask, the difference of the two ciphertexts has a zero mask, and decryption with any key at all, for instance all zeros, returns the difference of the messages modulo t as soon as the difference of the errors is within the decryption range.", "quantifier": "all keys, dimensions, parameters, laws of the noise within the decryption range, strategies of choosing messages and lengths of the history; all masks, pairs of messages, noise values and keys of the reader", "why_tests_cant": "A test sees a few ciphertexts; the bound for all adaptive histories is a statement about distributions, and a test with a working generator never meets a repeated mask.", "anchors": ["fhe_core/src/secret_key.rs: LWESecretKey::encrypt, decrypt", "lattice/src/lwe.rs: generate_random_zero_sample, sub_reduce_component_wise_ref"]}
{"id": "C97", "title": "What happens to ciphertexts that are changed after encryption", "statement": "Ciphertexts carry no authentication. Whoever adds a public ciphertext of d to any ciphertext at all, also one that was never encrypted, adds d modulo t to the message that decryption finds, under every key, and decryption does not notice; a changed message only shows as a panic if the message type cannot hold it. On the other hand decryption tolerates damage within explicit bounds: if every word of a ciphertext of m with noise z is changed by at most beta, it still decrypts to m as long as |z| + beta (w + 1) is below q/2t, where w is the number of non-zero words of a binary or ternary key; mask words at positions where the key is zero may be replaced by anything.", "quantifier": "all ciphertexts, added messages, keys, dimensions, parameters and message types; all changes of the words within the bound", "why_tests_cant": "Tests decrypt what they encrypted; that no ciphertext is protected against the change, and that no change within the bound does harm, range over all ciphertexts and changes.", "anchors": ["fhe_core/src/secret_key.rs: LWESecretKey::decrypt", "fhe_core/src/plaintext.rs: decode", "lattice/src/lwe.rs: add_reduce_component_wise_ref"]}
{"id": "C98", "title": "Ciphertexts of different dimensions in builds without debug assertions", "statement": "In a build without debug assertions, such as the default release build, no gate and no decryption notices that ciphertexts have different dimensions. A gate of two operands computes exactly what the checked build computes for the operands cut to the smaller dimension; the majority gate also cuts its third operand to it or fills it with zeros; the multiplexer does not panic either, if the cut operands are not larger than the key or the last step is the LWE key switching. Decryption computes what the checked build computes for the ciphertext cut or filled with zeros to the dimension of the key. For equal dimensions both builds agree. A ciphertext that has lost words decrypts in such a build as if nothing had happened if the key is zero there; otherwise the decryption is a uniform guess which is independent of the message.", "quantifier": "all dimensions and contents of the operands, all six gates of two operands, majority and the multiplexer, all valid keys, parameters and message types; all binary and ternary keys, messages, error laws in range and numbers of lost words for the last claim", "why_tests_cant": "The tests run in one profile with operands of one dimension; what the other profile does with operands that fit nowhere ranges over all dimensions, and that the result carries no information about the message is a statement about distributions.", "anchors": ["lattice/src/lwe.rs: add_reduce_component_wise_ref, add_reduce_inplace_component_wise, sub_reduce_component_wise_ref", "algebra/src/modulus/powof2/internal_macros.rs: dot_product_reduce", "bool/src/bfhe/evaluate.rs: nand, and, or, nor, xor, xnor, majority, mux", "fhe_core/src/secret_key.rs: LWESecretKey::decrypt"]}
{"id": "C99", "title": "Circuits of any depth with a new evaluation key for each layer", "statement": "Bits are encrypted, and layers of gates are evaluated one after the other, on the inputs and on all earlier results, with a new evaluation key of the same secret key for each layer. Which gates a layer applies may depend on all ciphertexts there are by then. Every result decrypts to the value of its gate on bits, except with a probability of at most the number of gates times the failure bound of one gate, whatever the depth. For the default parameters, with their noise and gates of one or two operands, this is 3 exp(-14), less than 1/400000, for each gate, for every secret key and all masks of the inputs.", "quantifier": "all accepted parameters with the stated noise budget, all secret keys, inputs, masks and noises of the inputs in range, all adaptive choices of the gates (not, nand, and, or, nor, xor, xnor, majority), all numbers of layers and gates; the probability is over the draws of the evaluation keys", "why_tests_cant": "A test runs one circuit with a few keys; the bound concerns all circuits of every depth, also those chosen by someone who sees the ciphertexts, and events of probability below a millionth.", "anchors": ["bool/src/bfhe/evaluate.rs: EvaluationKey::new, not, nand, and, nor, or, xor, xnor, majority", "bool/src/bfhe/parameters.rs: DEFAULT_TERNARY_128_BITS_PARAMETERS", "fhe_core/src/secret_key.rs: LWESecretKey::decrypt"]}
{"id": "C100", "title": "Polynomials of different lengths in builds without debug assertions", "statement": "In a build without debug assertions, such as the default release build, sums and differences of polynomials of different lengths return. With an owned left operand the result has its length and the missing coefficients of the right operand count as zero; with a borrowed left and an owned right operand it has the length of the right one, and in a difference the surplus coefficients of the right operand are not negated; with two borrowed operands it is cut to the smaller length. In a product in transform form the surplus values of the left operand stay as they are. The built-in transform for n = 2^k values, n at least 2, returns exactly if the slice has at most n + 1 words. A product of polynomials returns exactly if the left length n is a power of two from 2 on with a table and the right one is at most n + 1, and then has n coefficients. For equal lengths it is the product modulo X^n + 1; for a right length n + 1 the last coefficient is ignored; for a shorter right operand the result is in general not a product at all: 1 times 2 gives 14 + 15 X + 16 X^2 + 8 X^3 modulo 17.", "quantifier": "all polynomials of any lengths over every field of the library, all generated tables of the built-in transform", "why_tests_cant": "The tests run with debug assertions and with equal lengths; for which lengths the unchecked transform runs out of roots, and what it computes otherwise, ranges over all pairs of lengths.", "anchors": ["algebra/src/polynomial/native_polynomial.rs: AddAssign, Add, SubAssign, Sub, MulAssign, Mul", "algebra/src/polynomial/ntt_polynomial.rs: AddAssign, Add, SubAssign, Sub, MulAssign, Mul", "algebra/src/transformation/ntt_table.rs: transform_slice, inverse_transform_slice"]}
{"id": "C101", "title": "Any number of evaluation keys for one secret key", "statement": "Evaluation keys can be generated again and again for one secret key, for example a new one for each layer of a circuit as in C99. Whoever sees all bootstrapping keys, or all key switching keys, generated in this way, together with anything else that depends on the secret they are encrypted under, and tells the secret digits they contain from other digits, also tells samples of (ring) learning with errors from uniform ones, with at least half of the advantage; there are as many samples as all keys together contain.", "quantifier": "all accepted ring parameters, all numbers of keys, binary and ternary digits, RLWE and LWE switching keys, all error laws in range, all laws of the secret and the auxiliary value, all observers", "why_tests_cant": "A test sees a few keys; secrecy concerns all observers and the joint distribution of all keys.", "anchors": ["bool/src/bfhe/evaluate.rs: EvaluationKey::new", "fhe_core/src/blind_rotation/binary.rs: BinaryBlindRotationKey::generate", "fhe_core/src/blind_rotation/ternary.rs: TernaryBlindRotationKey::generate", "fhe_core/src/key_switch/rlwe.rs: KeySwitchingRLWEKey::generate", "fhe_core/src/key_switch/lwe.rs: KeySwitchingLWEKey::generate"]}
{"id": "C102", "title": "Gadget ciphertexts with too few or too many elements", "statement": "A gadget ciphertext in transform form can be made of any number of elements, without a check in any build; the other constructors check the number against the basis in builds with debug assertions only. The products of a polynomial with l elements of a gadget ciphertext of m never panic. They multiply m with the remainders of the coefficients modulo the l-th power of the base: with at least as many elements as the basis has digits this is the whole polynomial, and further elements do not change the result; with fewer elements there are polynomials other than zero for which nothing is left of the message.", "quantifier": "all accepted ring parameters and bases, all numbers of elements, messages, errors and polynomials, all forms of the product, with and without accumulation, subtraction and lazy reduction", "why_tests_cant": "Tests use complete ciphertexts; the silent loss of high digits shows only for polynomials with large coefficients.", "anchors": ["lattice/src/gadget/rlwe.rs: GadgetRLWE::new, GadgetRLWE::from, GadgetRLWE::from_ref, NTTGadgetRLWE::new, NTTGadgetRLWE::from, NTTGadgetRLWE::from_ref, mul_polynomial, mul_polynomial_add_rlwe, mul_polynomial_inplace, mul_polynomial_inplace_fast", "lattice/src/rlwe.rs: NTTRLWE::add_gadget_rlwe_mul_polynomial, NTTRLWE::sub_assign_gadget_rlwe_mul_polynomial_inplace"]}
{"id": "C103", "title": "Every Boolean function can be evaluated on encrypted bits", "statement": "Every function of n bits is the value of a circuit of fewer than 5*2^n gates of one or two operands. Such a circuit, or any other circuit of these gates, of any depth, can be evaluated on ciphertexts gate by gate, in an order that is fixed in advance, each gate with a new evaluation key of the same secret key: the last ciphertext decrypts to the value of the circuit on the encrypted bits. With the default parameters this fails with probability at most 2 exp(-20) for each gate.", "quantifier": "all functions of any number of bits, all circuits of not, nand, and, or, nor, xor and xnor gates, all secret keys, all bits, masks and noises of the inputs in range; the probability is over the draws of the evaluation keys", "why_tests_cant": "There are 2^(2^n) functions of n bits; a test evaluates a few circuits on a few inputs.", "anchors": ["bool/src/bfhe/evaluate.rs: EvaluationKey::new, not, nand, and, nor, or, xor, xnor", "bool/src/bfhe/parameters.rs: DEFAULT_TERNARY_128_BITS_PARAMETERS", "fhe_core/src/secret_key.rs: LWESecretKey::decrypt"]}
{"id": "C104", "title": "Failure of deep circuits when rotation noise and rounding are taken together", "statement": "As in C99: bits are encrypted, layers of gates are evaluated, each layer with a new evaluation key, and everything is decrypted. If the key is switched before the modulus, the noise of the rotation and the rounding of the modulus switching add up like independent noises, so that the probability of a failure is governed by the sum of their variances. For the default parameters a gate of one or two operands fails with probability at most 2 exp(-20), less than 5 in a billion, and if majority is among the gates with probability at most 2 exp(-8), whatever the depth of the circuit.", "quantifier": "all accepted parameters that switch the key before the modulus, all secret keys, inputs, masks and noises of the inputs in range, all adaptive choices of the gates (not, nand, and, or, nor, xor, xnor, majority), all numbers of layers and gates; the probability is over the draws of the evaluation keys", "why_tests_cant": "Events of probability below 10^-8 are not seen in tests, and the bound concerns all circuits of every depth.", "anchors": ["bool/src/bfhe/evaluate.rs: EvaluationKey::new, not, nand, and, nor, or, xor, xnor, majority", "bool/src/bfhe/parameters.rs: DEFAULT_TERNARY_128_BITS_PARAMETERS", "fhe_core/src/secret_key.rs: LWESecretKey::decrypt"]}
{"id": "C105", "title": "Circuits evaluated layer by layer: as many evaluation keys as the depth", "statement": "Bits are encrypted and a circuit is evaluated by layers: all gates of the same depth are evaluated with the same new evaluation key, and equal parts of the circuit are evaluated once. The last result decrypts to the value of the circuit on the bits. For the default parameters this fails with probability at most 2 exp(-20) for each different gate of one or two operands (2 exp(-8) if majority is among the gates), and the number of evaluation keys is the depth of the circuit. In particular every function of n bits can be evaluated with 2n+1 evaluation keys, failing with probability at most 10 2^n exp(-20).", "quantifier": "all circuits of not, nand, and, or, nor, xor, xnor and majority with at least one gate, all bits, all secret keys, masks and noises of the inputs in range, all functions of n bits for all n; the probability is over the draws of the evaluation keys", "why_tests_cant": "The statement concerns all circuits, with results shared by several gates, and events of tiny probability.", "anchors": ["bool/src/bfhe/evaluate.rs: EvaluationKey::new, not, nand, and, nor, or, xor, xnor, majority", "bool/src/bfhe/parameters.rs: DEFAULT_TERNARY_128_BITS_PARAMETERS", "fhe_core/src/secret_key.rs: LWESecretKey::decrypt"]}
{"id": "C106", "title": "Addition, multiplication and comparison of encrypted numbers", "statement": "Two numbers of n bits are encrypted bit by bit, and a user adds, multiplies or compares them with the gates of the library, all gates of one depth with the same new evaluation key. The bits of the result decrypt to the bits of the sum, the product or the comparison. At the default parameters the sum and the comparison need at most 2n evaluation keys and fail with probability at most 10 n exp(-20); the product needs at most 6n and fails with probability at most 12 n^2 exp(-20). More generally any list of circuits of gates of one or two operands can be evaluated together, and so every function from n bits to m bits, with 2n+1 evaluation keys and a probability of failure of at most 10 m 2^n exp(-20).", "quantifier": "all n, all pairs of numbers of n bits, all functions from n bits to m bits, all lists of circuits of not, nand, and, or, nor, xor and xnor in which each result is that of a gate, all secret keys, masks and noises of the inputs in range; the probability is over the draws of the evaluation keys", "why_tests_cant": "The numbers and their lengths are arbitrary, the circuits share results between gates, and the events have tiny probabilities.", "anchors": ["bool/src/bfhe/evaluate.rs: EvaluationKey::new, not, and, or, xor, xnor", "bool/src/bfhe/parameters.rs: DEFAULT_TERNARY_128_BITS_PARAMETERS", "fhe_core/src/secret_key.rs: LWESecretKey::encrypt, decrypt"]}
{"id": "C107", "title": "Sequential machines on encrypted bits", "statement": "A user keeps the encrypted state of a machine and in each step reads further encrypted bits and computes the next state with the gates of the library, all gates of one depth with the same new evaluation key. After any number T of steps the bits of the state decrypt to the state the machine reaches on the bits themselves. At the default parameters this needs at most T d evaluation keys, where d is the depth of one step, and fails with probability at most 2 T g exp(-20), where g is the number of gates of one step. Any function may give the next state of n bits from the state and k bits that are read: there are circuits for it with T (2(n+k)+1) evaluation keys and a probability of failure of at most 10 n T 2^(n+k) exp(-20).", "quantifier": "all machines given by circuits of not, nand, and, or, nor, xor and xnor in which each new bit of the state is the result of a gate, and all given by functions of the state and the bits that are read, all numbers of steps, all first states and bits that are read, all secret keys, masks and noises of the inputs in range; the probability is over the draws of the evaluation keys", "why_tests_cant": "The number of steps is arbitrary and each step works on the results of the previous ones, so that noise could add up; the events have tiny probabilities.", "anchors": ["bool/src/bfhe/evaluate.rs: EvaluationKey::new, not, nand, and, or, nor, xor, xnor", "bool/src/bfhe/parameters.rs: DEFAULT_TERNARY_128_BITS_PARAMETERS", "fhe_core/src/secret_key.rs: LWESecretKey::encrypt, decrypt"]}
{"id": "C108", "title": "Which programs need no prepared tables", "statement": "A new program has no tables of transforms. If all its threads use transforms of one size only, then in every schedule and whatever the outcomes of the table generations there is no data race, and a thread that ends without a panic has the result of running alone. Threads whose computations do not fork and succeed alone can reach a data race exactly if at least two of them use tables and they use together at least two sizes; when tables have been published before, two threads that use tables can race exactly if one of them uses a size whose table is missing. In particular any number of threads may each start an application and use it at the same time with either parameter set of the library, while two threads that start applications with other parameters can race exactly if the key switching is done on the ring ciphertext and the LWE dimension, rounded up to a power of two, has not the same number of trailing zeros as the ring dimension.", "quantifier": "all schedules, all numbers of threads, all computations, all histories of calls, all keys and draws, all parameters, all outcomes of the random table generation", "why_tests_cant": "A race needs a schedule in which one thread inserts a table while another one reads the map; a test sees few schedules, and for the parameter sets of the library no test could show that there is none.", "anchors": ["algebra_derive/src/ntt.rs: get_ntt_table, init_ntt_table", "bool/src/key_gen.rs: KeyGen::generate_secret_key", "bool/src/bfhe/evaluate.rs: EvaluationKey::new, Evaluator", "bool/src/bfhe/parameters.rs: DEFAULT_TERNARY_128_BITS_PARAMETERS, CUSTOM_TERNARY_128_BITS_PARAMETERS"]}
