# Formal model of primus-fhe: design

The Rust workspace in /repo (crates `algebra`, `algebra_derive`, `lattice`,
`fhe_core`, `bool`) is modelled in Lean 4 under `lean/Verif`. Rust sources are
read as text only. Each Lean definition cites the file and lines it models.

## Trusted base

* Lean 4.33.0's kernel, and Mathlib as installed (imported module by module).
* Axioms: at most `propext`, `Classical.choice`, `Quot.sound` for every theorem.
  No own axioms, no `sorry`, no `native_decide`, no `bv_decide`.
* The reading of the Rust source. Model conventions:
  * An unsigned machine word of width `w` is a `Nat` below `2^w`; the width is a
    parameter, so one theorem covers u8, u16, u32, u64 (macros in /repo
    instantiate the same text for each width).
  * A plain `+ - * <<` that panics in debug builds on overflow is a checked
    operation returning `Option` (none = panic). A theorem `f x = some y`
    therefore says both "never panics" and "value y" (debug and release agree).
    `wrapping_*` operations are modelled by `% 2^w`.
  * `assert!`, `unwrap`, `unreachable!`, slice index failure: `none`.
  * `&mut` arguments become returned values; iterators become lists or indexed
    functions; loops become structural recursion, folds or fuel recursion with a
    proof that the fuel suffices.
  * Randomness is an explicit argument: theorems quantify over all outcomes. The
    probabilistic theorems (C59 and later: noise laws, failure probabilities,
    secrecy reductions, C69, C70) draw that argument from a distribution. What they
    trust about `rand` and `rand_distr` is that `Uniform` is uniform on its range,
    that successive draws are independent, and what `Deviates` (SpecGaussianLaw.lean) asks of `Normal`.
  * AES: the x86 instructions (`aesenc`, `aesenclast`, `aeskeygenassist`, shuffles)
    are modelled from the vendor documentation, and so are the NEON instructions used
    by `sse2neon.rs` and the `adc` and `sbb` of C78. The buffering of `rand_core`'s `BlockRng` (a dependency, not in
    /repo) is modelled from the crate's documentation and source, version 0.6.
  * The feature `concrete-ntt` is on by default. With it, fields of width 32 and 64
    transform with plans of the external crate of that name. The calls are modelled
    (Model/Transform.lean), the crate is not: theorems that need a plan assume the
    contract in SpecTransform.lean (the plan evaluates at the roots of X^n + 1, in
    some order, and its inverse also takes the lazy words below 2q that the callers
    pass to it). Every theorem about polynomials, ciphertexts, keys and gates is
    proved for a table of either back end (`TableField`, `DefaultBuild`); without
    the feature no contract is assumed. C76 compares the two.
* Not modelled: `rand`'s
  distributions other than the code in this repo, thread scheduling below the
  level of the lock and the shared map, memory allocation, formatting, benches
  and examples.


## Plan per property

| id | title | model module | how it is proved |
|---|---|---|---|
| C01 | Widening word arithmetic is exact | Word.lean/Spec | word ops on Nat below 2^w at generic w; exactness by div/mod algebra |
| C02 | Barrett modulus construction accepts exactly the supported moduli | Barrett.lean | `new` modelled with both division paths (div_half, div_wide), Option for the panics; ratio = b^2/m proved from two-step long division |
| C03 | Barrett reduction returns the residue | Barrett.lean | reduce functions word by word with checked additions; quotient estimate off by at most one proved for every m < b/4 |
| C04 | Barrett reduction of multi-word integers | Barrett.lean | rfold over the slice; induction on the list |
| C05 | Modular add/sub/neg/mul are the ring operations of Z/m | PrimReduce.lean, Barrett.lean | checked-add model; refinement to ZMod m |
| C06 | Modular exponentiation | Exp.lean | loop model generic over a monoid-like mul with hypothesis that mul refines ZMod m; instantiated per modulus |
| C07 | Modular inverse and division | Gcd.lean, PrimReduce.lean, Field.lean | binary extended gcd with loop invariant; Fermat for derived fields |
| C08 | Dot product modulo m | Barrett.lean | chunks of 16 model; correctness for multiples of 16 (_partial) and a witness that the remainder is dropped |
| C09 | Shoup multiplication | Shoup.lean | word model; Shoup quotient error < 1 |
| C10 | Power-of-two modulus arithmetic | PowOf2.lean | wrapping ops then mask; refinement to ZMod 2^k |
| C11 | BabyBear field arithmetic | BabyBear.lean | Montgomery reduction on Nat with borrow; refinement to ZMod P |
| C12 | Goldilocks field arithmetic | Goldilocks.lean | word model of all overflow corrections; congruence mod P for all words |
| C13 | Goldilocks results are canonical and closed under negation | Goldilocks.lean | witnesses at P (violated); partial theorem for canonical inputs |
| C14 | Greatest common divisor and Bezout coefficients | Gcd.lean | Stein gcd = Nat.gcd; extended gcd Bezout and range invariant |
| C15 | Primality test never rejects a prime | Prime.lean | Miller-Rabin loop, witnesses a list; primes always accepted (ZMod p field argument) |
| C16 | Primality test rejects composites unless every round's witness is a strong liar | Prime.lean | violated by `break 'next_round`; witness composite accepted for every round count; partial: one-round guarantee |
| C17 | Bit reversal is an involutive permutation | Reverse.lean | bit reversal via shift; spec by testBit |
| C18 | Uniform field sampling is exactly uniform | Sample.lean | Lemire rejection; counting by intervals |
| C19 | Binary, ternary and centred-binomial sampling have the stated support and distribution | Sample.lean | chunk model; per-chunk counting, support |
| C20 | Gadget decomposition recomposes exactly | Basis.lean | digits loop; recomposition by induction on length |
| C21 | In-place decomposition overwrites the whole destination | Basis.lean | violated (early break); witness and partial for zeroed destination |
| C22 | Polynomial ring operations | Poly.lean | word-level lists refined to coefficient functions over ZMod q |
| C23 | Number theoretic transform evaluates the polynomial | NTT.lean | word-level loop with checked ops refined to exact butterfly over ZMod q, exact butterfly refined to evaluation at odd powers |
| C24 | Inverse transform undoes the transform | NTT.lean | each inverse stage undoes a forward stage |
| C25 | Polynomial product is negacyclic convolution | Poly.lean | evaluation is a ring hom separating residues mod X^n+1 |
| C26 | Monomial transform shortcut equals the full transform | NTT.lean | index arithmetic mod 2n |
| C27 | Primitive root search is sound and canonical | Root.lean | order theory in ZMod p |
| C28 | Transform table cache is consistent over any history | Cache.lean | state machine over maps; induction over histories |
| C29 | Transform table cache is race free | Cache.lean | interleaving model with read/write intervals; violated: witness schedule; partial: writers exclude each other |
| C30 | Message encoding round trip with noise | Plaintext.lean | word model with shifts; exact rounding window |
| C31 | LWE decryption inverts encryption | LWE.lean | encrypt/decrypt over ZMod q with arbitrary mask and noise |
| C32 | Reported noise is the true noise magnitude | LWE.lean | centred absolute value |
| C33 | LWE linear operations act on plaintext phases | LWE.lean | phase linearity |
| C34 | Sample extraction | RLWE.lean, SpecRing.lean | index sums over range |
| C35 | Monomial multiplication of ring ciphertexts | RLWE.lean | list rotations vs negacyclic spec |
| C36 | Gadget product multiplies the phase | RLWE.lean, RGSW.lean, SpecRGSW.lean | digit recomposition + linearity |
| C37 | External product multiplies the phase | RGSW.lean | from C36; products, samples and sums of RGSW ciphertexts as statements about phases |
| C38 | Blind rotation rotates the lookup table by the encrypted phase | BlindRotation.lean | induction over key list, explicit error and infinity-norm bound |
| C39 | LWE key switching preserves the phase | KeySwitchLWE.lean | sum over digits, explicit error |
| C40 | RLWE key switching preserves the phase | KeySwitchRLWE.lean | chunked extraction algebra |
| C41 | Modulus switching rounds correctly despite floating point | ModSwitch.lean | f64 as rationals rounded to 53 bits, ties to even; exactness of the rounded result |
| C42 | Gate lookup tables decide the right Boolean function | Luts.lean | table as function; negacyclic reading; interval analysis |
| C43 | Homomorphic NOT | Gates.lean | phase shift by q/4 |
| C44 | Bootstrapped gates decrypt to the Boolean function of the inputs | Bootstrap.lean, Gates.lean, Circuit.lean, SpecBootstrap.lean, SpecCircuit.lean | composition of C38-C42; the noise of a run is a hypothesis, discharged by worst-case bounds in C44_noise_bound; induction over circuits |
| C45 | Parameter validation | Params.lean | decision logic; corner t = q violated by decode |
| C46 | Batch block encryption equals block-wise encryption | Aes.lean | batching loop over the modelled cipher; induction on the slice |
| C47 | Pseudo-random generator stream | Prg.lean | buffered counter-mode state machine |
| C48 | 128-bit block conversions round-trip | Block.lean | byte/word conversions over Nat |
| C49 | Field element construction and serialisation | Field.lean | new/serialize/deserialize |
| C50 | Polynomial inverse | Poly.lean | pointwise Fermat inverse in the transform domain; witness that a non-invertible polynomial is accepted |
| C51 | AES-128 conforms to FIPS 197 on both architectures | Aes.lean, SpecAes.lean | byte-level model of the instructions and of their aarch64 emulation against a direct FIPS 197 specification; S-box table checked entry by entry by the kernel, the rest algebraically |
| C52 | From key generation to decryption | KeyGen.lean, EndToEnd.lean | generation of the keys, then composition of C31, C44; concrete instance over the default field |
| C53 | Gaussian samplers return bounded residues | Gaussian.lean | stream of rationals as normal deviates, f64 test and rounding; induction over the rejected deviates |
| C54 | Transform tables do not depend on randomness or history | Determinism.lean | C27 (smallest root) and the deterministic rest of the generation; C28 for histories |
| C55 | Unchecked table accesses stay in bounds | Unchecked.lean | index formula with checked and with wrapping multiplication; table length from the generation theorem |
| C56 | Transform counters under concurrency | Counter.lean | executions as event lists in the modification order of the counter, relaxed flag reads by views; induction over executions |
| C57 | Circuits are correct whenever the noise that occurs is small | Circuit.lean, EndToEnd.lean | noises of a run as hypotheses on that run (rotation, switching, roundings) instead of worst-case bounds; induction over the circuit |
| C58 | Adding, subtracting and scaling ciphertexts | Elementwise.lean, SpecElementwise.lean | zips with a destination argument refined to ring operations through the coefficient and transform representations; lists by induction |
| C59 | Large rotation noise is improbable | Props/Noise.lean, NoiseLaw.lean | laws are PMFs of Mathlib; the noise of a run is a sum of independent errors with coefficients that depend on earlier draws only, so its exponential moment is bounded step by step (tower property), then Markov's inequality; the sampler's law from the bits of uniform bytes and cosh x <= exp(x^2/2) |
| C60 | Large key switching noise and failing gates are improbable | Props/NoiseSwitch.lean, Failure.lean | the same for the two key switchings; a union bound over rotation and switching (conditioned on the rotation key), then C44 for the gate |
| C61 | Applications get the replies of the same calls on bits | Session.lean, SpecSession.lean | induction on the history of calls with the invariant that the store encrypts the bits of the plain run at the stable noise level; each gate call is a circuit of one gate (C44), decryptions by C31 and C32 |
| C62 | Arithmetic on transform forms | EvalForm.lean | the representation relation between words and ring elements (coefficients, values at the roots) is preserved by every form; representatives are unique |
| C63 | Arithmetic modulo the word size | Native.lean | wrapping operations over Nat; strong induction for the power loop; witness 1/3 for the division |
| C64 | The samplers have the documented laws | Sample.lean, SpecSampler.lean, Props/SampleLaw.lean | laws as PMFs: a uniform word splits into independent uniform parts, induction over chunks; for the uniform sampler a recursion over the words for the probability of one vector |
| C65 | Comparisons, precomputed factors and low-end digits of field elements | Verif.Props.FieldEq | Direct computation; the digits by induction over the calls. |
| C66 | A switching key with uniform masks makes the rounding of a bootstrapping small | Props/Rounding.lean, Props/UniformMask.lean, Props/FailureRounding.lean | The rounding error of a mask entry is its centred product with q' over Q, a bijection of the residues, so a uniform entry gives a sub-Gaussian error of parameter Q^2/12. The digits generate the unit ideal of the ring exactly if they have no common root; then a shift of the key masks by a combination of the cofactors shifts the resulting mask by any given vector, and shifts keep the uniform law, so the result is uniform. The union bound adds this to the tails of C60. |
| C67 | Encryption hides messages as well as learning with errors is hard | Props/Secrecy.lean | SpecSecrecy.lean defines the learning-with-errors problem and the games. The law of a ciphertext is computed from C31: mask and phase determine it. A game with adaptive queries is the image of independent samples under a fold that uses no secret; on uniform samples the fold does not depend on the messages, because shifting is a bijection. |
| C68 | Evaluation keys hide the keys inside them as well as learning with errors is hard | Props/SecrecyKeys.lean, Props/SecrecySwitch.lean, Props/SecrecyDefaults.lean | The transform of a uniform ring element has independent uniform words (it is a bijection), so each generated row is the transform of a ring-LWE sample plus a public multiple of the digit; shifts keep the uniform law. Keys are shown equal, word by word, to the replay of the samples. |
| C69 | Error probability of the primality test | Props/PrimeError.lean | Rabin's theorem in Lemmas/StrongLiars.lean: the strong liars of a composite lie in a subgroup of the units of index at least 4 (square factor: an element of order p; otherwise signs changed modulo one prime factor by the Chinese remainder theorem, Carmichael numbers have three factors). Then counting over the drawn witnesses with C16. |
| C70 | The random search for transform roots practically never fails | Props/RootSearch.lean | The search fails only when all 100 candidates are squares (C27); at most half of the candidates are squares, because the squares are a proper subgroup of the units and 1 is not a candidate. |
| C71 | Gaussian errors have the law the failure bounds rely on | Props/GaussianLaw.lean, Props/GaussianDefaults.lean | Rejection sampling by induction over the deliveries; truncation does not increase the mean of a function that grows with the magnitude; rounding adds a dependent error of at most 1/2 with the sign of the number, handled by convexity; Mathlib's normal law for the example; then C66. |
| C72 | No panic before decryption | SpecTotal.lean, Props/Total.lean | The word operations modulo a power of two see only residues; every step of bootstrapping is total for every phase (the noise bound of C44 with the phase itself as noise); induction on the history. |
| C73 | Which accepted parameters have keys | SpecKeys.lean, Props/KeysExist.lean | Sufficiency from C52; necessity by going back through the successful steps of key generation; seven accepted tuples without keys as witnesses. |
| C74 | Programs cannot tell the generator from true randomness | SpecPrgSecurity.lean, Lemmas/Switching.lean, Props/PrgSecurity.lean | C47 and C51 turn every run into a function of AES ciphertexts of the counters; the switching lemma (values of a uniform permutation against independent uniform values, with the birthday bound) and the bijection between blocks and words do the rest. |
| C75 | With a fresh evaluation key the gates fail with negligible probability, without exceptions | SpecUnit.lean, Lemmas/Norm.lean, Props/MaskSpread.lean, Props/AccMask.lean, Props/AccStep.lean, Props/AccLoop.lean, Props/TableUnit.lean, Props/AccRotation.lean, Props/AccEval.lean, Props/AccSwitch.lean, Props/AccOut.lean, Props/AccGates.lean, Props/AccDefaults.lean | A step of a rotation adds a product of digits with uniform key elements; it is uniform unless the digits of the current accumulator have a common root. Small polynomials have few roots by a norm argument (a power of two cyclotomic norm of a polynomial with small coefficients is too small to be divisible by the modulus at many places), so a hybrid over the steps bounds the distance; the first step is exact because the tables of the gates are units. Then the chunks of the key switching, the extraction and the modulus switch are followed as in C66. |
| C76 | The build with the external transform library computes the same results as the build without it | Model/Transform.lean, SpecTransform.lean, Lemmas/Evaluates.lean, Props/Concrete.lean | A table of either kind evaluates at n distinct roots of X^n + 1; there are only n of them, so two tables have the same points in another order, and interpolation is unique. A plan made from the native table with reversed order shows that the contract can be met. |
| C77 | All spellings of an operation agree | Model/Assign.lean, Props/Assign.lean | each spelling with a body of its own is a definition of its own; equalities by unfolding, commutativity of the word and ring operations and induction on the lists; products through C25 |
| C78 | Code for x86 computes what the portable code computes | Model/X86.lean, Props/X86.lean | the instructions add, adc and sbb on words with a carry flag; comparison with the sums of C01 and case analysis on the flag |
| C79 | Deriving a field accepts exactly the supported declarations | Model/Derive.lean, Props/Derive.lean | the parts of the syntax tree that the macros inspect; parsing of the literal by induction on the digits, the constants by C02 |
| C80 | Work spaces never influence results | Model/Scratch.lean, SpecScratch.lean, Props/Scratch.lean | a second model of these functions that passes every space along, with the old content; simulation with the model without spaces by induction over the digits, key elements and calls |
| C81 | Gates may be called from any number of threads | Model/Threads.lean, SpecThreads.lean, Lemmas/Threads.lean, Props/Threads.lean, Props/ThreadsLock.lean, Props/ThreadsPoison.lean, Props/ThreadsApps.lean | the functions again in a monad where each request for a table is visible, shown equal to the functions of the model when the requests are answered; a step machine for the shared memory, in which threads interleave; invariants over all schedules, and a list of the sizes that gates ask for, all of them requested during the key generation |
| C82 | Gates are right with the second parameter set | SpecJoint.lean, Props/JointNoise.lean, Props/JointDefaults.lean | exponential moments of both noises as functions of the draws of the evaluation key, the second conditioned on the first; the sum and the difference of the weighted noises bound their magnitudes; the number of entries of a key that are not zero by Markov's inequality for its exponential moment |
| C83 | Builds without overflow checks | Model/Release.lean, Props/Release.lean | second models of the functions whose checked build can overflow, with wrapping operators; a run of the checked model that does not panic is a run of the wrapping model; the numbers in the extended greatest common divisor do not depend on the coefficients that wrap |
| C84 | Where the code departs from its documentation, exactly | Props/Exact.lean | necessary and sufficient conditions proved about the models of the partial properties; both directions from the closed form of each result |
| C85 | Any program over polynomials computes in the ring | Props/Programs.lean | induction over the expression with the invariant that the words represent the ring element, from the single-operation lemmas of C22, C25 and C62 |
| C86 | Any program over ring ciphertexts: message and noise | Props/Leveled.lean | induction over the program from the phase theorems C34, C35, C37 and C58, and a calculus of sums of absolute values under the negacyclic product |
| C87 | Exponentiation with a signed exponent type | Props/SignedExp.lean | the arithmetic shifts of a negative exponent agree bit by bit with the unsigned word 2^E - k, then the loop lemma of C06 |
| C88 | Number of transforms per operation, and what it reveals | Props/Work.lean | a copy of every operation in a monad that counts the calls of the two transforms; one relation says that the copy returns or panics like the original and adds a given count, and is proved compositionally, by induction for the loops; the shapes of generated keys follow by induction on their generation |
| C89 | Laws under which a circuit may be rewritten without changing any ciphertext | Props/Laws.lean | the operations on words are sums and differences modulo the power of two, so both sides of a law feed the same words into the same bootstrapping; circuits by induction on the derivation of the rewriting, with C72 for the absence of panics |
| C90 | Bootstrapping with any table computes that table, and programs of lookups compute their functions | Props/Programmable.lean, Props/ProgrammableFailure.lean | the phase is followed through modulus switch, rotation (C38), extraction (C34), key switching (C39, C40) and modulus switch (C41) with an arbitrary integer in place of an encoded bit; tables of functions by an interval computation on the circle; programs by induction with a stable noise level |
| C91 | A key decrypts ciphertexts of another key to uniformly random messages | Props/WrongKey.lean | adding a suitable number to one word of the uniform mask permutes the masks and moves the phase under the wrong key by exactly one message, so the law of the reply is invariant under a shift by one |
| C92 | Whoever gets chosen ciphertexts decrypted gets the key | Props/Oracle.lean | the phase of a ciphertext with a single non-zero mask word is a known multiple of one word of the key; decoding it is exact |
| C93 | Ciphertexts of another dimension than the key | Props/Dimension.lean | the fold of blind rotation over zipped lists reads as many words as the key has elements and skips zeros; sums, differences and switches commute with resizing because they send zeros to zero |
| C94 | Gates with the evaluation key of another secret key | Props/WrongEvaluator.lean | adding q/2, q/4 or q/8 to the word of the mask in which the keys differ changes the switched phase by exactly half a turn, which negates every entry of a gate's table and so flips the bit; the mask is uniform, so both bits are equally likely |
| C95 | Sums of many fresh ciphertexts decrypt to the sum of the messages, except with a probability that falls with the square of the margin | Props/Sums.lean | a coupling: by induction over the terms, the outcome is a ciphertext whose error has the law of the weighted sum of independent errors; the exponential moments multiply and Chernoff's bound gives the tail |
| C96 | Masks practically never repeat, and a repeated mask gives the difference of the messages away | Props/Masks.lean | the mask of an encryption is uniform on q^n vectors (C67), and induction over the history gives the birthday bound; the difference of equal masks is computed by the modular subtraction and decrypted by C31 |
| C97 | What happens to ciphertexts that are changed after encryption | Props/Tamper.lean | the phase moves by exactly one message under the addition (C33), for which decoding is equivariant on the whole circle; changes of words move the phase by at most the weighted sum of the changes, by induction over the words |
| C98 | Ciphertexts of different dimensions in builds without debug assertions | Props/ReleaseLWE.lean | zip gives the common part of two lists, so each unchecked operation is the checked one on cut operands, by induction; totality follows from C93; the lost words turn the key into another small key, so C91 gives the law of the guess |
| C99 | Circuits of any depth with a new evaluation key for each layer | Props/Renewed.lean | the operands of a layer are independent of its evaluation key, so C75 bounds the failure of each gate and the noise of its result; this noise is again within the budget of an operand; union bound within a layer and induction over the layers |
| C100 | Polynomials of different lengths in builds without debug assertions | Props/ReleasePoly.lean | the passes of the unchecked transform are total with a count of the roots they take, compared with the roots there are; every unchecked step gives what the checked one gives when that returns, so C25 carries over for equal lengths |
| C101 | Any number of evaluation keys for one secret key | Props/ManyKeys.lean | each key is a function of fresh samples and the contained digits (the lemmas of C68), so all keys together are a function of independent groups of samples; with uniform samples the law of the result does not depend on the digits |
| C102 | Gadget ciphertexts with too few or too many elements | Props/GadgetLen.lean | invariant of the digit loop for any number of elements; the first l digits of a number recompose to its remainder modulo the l-th power of the base; later digits of reduced coefficients are zero |
| C103 | Every Boolean function can be evaluated on encrypted bits | Props/Functions.lean | induction over the circuit shows that its schedule computes its value and has as many steps as gates; C104 gives the probability that all steps are right; induction over n gives a circuit for each function (decision on the last bit) |
| C104 | Failure of deep circuits when rotation noise and rounding are taken together | Props/Tuned.lean, Props/TunedDefaults.lean | the masks of the switching key are independent of the rotation key, so the rounding is bounded for each rotation key by what the noise of the rotation leaves; the exponential moments of that noise give the mean of these bounds; then as C99 |
| C105 | Circuits evaluated layer by layer: as many evaluation keys as the depth | Props/Layers.lean | the different parts of one depth form a layer whose operands are numbered results of earlier layers (SpecLayers); by induction on the layers the result of each part stands at its number; the layers have together as many gates as the circuit has different ones; the failure bound is C104's with the number of gates of each layer |
| C106 | Addition, multiplication and comparison of encrypted numbers | Props/Numbers.lean | the circuits are ripple-carry adders, an array multiplier and a comparison from the lowest bit (SpecNumbers); induction over the bits gives their values, their depths and a cover of their gates; all results stand before the inputs at the numbers of C105, whose bound on the failures applies |
| C107 | Sequential machines on encrypted bits | Props/Machines.lean | the state after T steps is a list of circuits, by putting the circuits of the previous state in place of the inputs of one step (SpecMachines); induction over the steps gives their values, their depth and a cover of their gates that grows by the gates of one step; then C106_default |
| C108 | Which programs need no prepared tables | Props/ThreadsOneSize.lean, Props/ThreadsAll.lean | the step machine of C81: if one size is requested then a published map always holds it, so no thread ever reaches the insertion; with two sizes a schedule is built in which one thread stays in the second look-up while the other one inserts; the sizes that the start of an application requests are computed function by function |

## Source files and the modules that model them

For each source file, the modules under `lean/Verif/Model` that cite it, and the functions without a definition of their own:

* A: constructors, accessors, iterators and views. The model uses the structure or the list itself.
* F: functions that only call another one, or are a plain operation of the language. Where they are used, the model calls what they call.
* M: the bodies of the derive macros. The code they generate is modelled.
* T: copying, formatting and hashing.

Tests are left out. All other functions of these files have definitions.

| file | modules | without own definition |
|---|---|---|
| algebra/src/decompose_basis.rs | Basis, Word | A: `default`, `decompose_len`, `mask`, `bits`, `basis` |
| algebra/src/field/mod.rs | Assign, Sample | F: `lazy_new` |
| algebra/src/field/ntt_fields.rs | - | only traits |
| algebra/src/field/prime_fields.rs | - | only traits |
| algebra/src/modulus/baby_bear/mod.rs | BabyBear | F: `to_monty_array`, `exp`, `mul`, `square` |
| algebra/src/modulus/baby_bear/ops.rs | Assign, BabyBear, Exp, SignedExp | F: `try_inv_reduce` |
| algebra/src/modulus/barrett/internal_macros.rs | Assign, Barrett, Word | F: `bit_count` |
| algebra/src/modulus/barrett/mod.rs | Barrett | A: `value`, `ratio` |
| algebra/src/modulus/barrett/ops.rs | Assign, Barrett, Exp, Field, SignedExp, Word | F: `inv_reduce` |
| algebra/src/modulus/goldilocks/mod.rs | Goldilocks, X86 | F: `mul`, `square` |
| algebra/src/modulus/goldilocks/ops.rs | Assign, Exp, Goldilocks, Release, SignedExp |  |
| algebra/src/modulus/powof2/internal_macros.rs | Assign, Exp, LWE, PowOf2, ReleaseLWE, SignedExp |  |
| algebra/src/modulus/powof2/mod.rs | PowOf2 | A: `mask` |
| algebra/src/modulus/shoup/internal_macros.rs | Assign, Shoup |  |
| algebra/src/modulus/shoup/mod.rs | NTT, Shoup | A: `value`, `quotient` |
| algebra/src/polynomial/native_polynomial.rs | Assign, EvalForm, Gaussian, Poly, ReleasePoly, Sample, Scratch, Threads, Word, Work | A: `new`, `from_slice`, `data`, `data_mut`, `coeff_count`, `as_slice`, `as_mut_slice`, `iter`, `copied_iter`, `iter_mut`, `resize`, `resize_with`, `index_mut`, `index`, `as_ref`, `as_mut`, `into_iter`; F: `random_with_binary`, `random_with_ternary`, `random_with_distribution`, `into_ntt_polynomial`, `mul` |
| algebra/src/polynomial/ntt_polynomial.rs | Assign, Elementwise, EvalForm, Poly, ReleasePoly, Sample, Scratch, Threads, Work | A: `new`, `from_slice`, `data`, `data_mut`, `coeff_count`, `as_slice`, `as_mut_slice`, `iter`, `copied_iter`, `iter_mut`, `resize`, `resize_with`, `index_mut`, `index`, `as_ref`, `as_mut`, `into_iter`; F: `set_zero`, `random_with_distribution`, `into_native_polynomial` |
| algebra/src/primitive/bits.rs | SignedExp |  |
| algebra/src/primitive/cast.rs | - | F: `as_cast`, `as_into`, `as_from` |
| algebra/src/primitive/neg_one.rs | - | F: `set_neg_one`, `is_neg_one` |
| algebra/src/primitive/widening/borrowing_sub.rs | Word, X86 |  |
| algebra/src/primitive/widening/carrying_add.rs | Word, X86 |  |
| algebra/src/primitive/widening/carrying_mul.rs | Word |  |
| algebra/src/primitive/widening/widening_mul.rs | Word |  |
| algebra/src/primitive/wrapping.rs | Word | F: `wrapping_add`, `wrapping_sub`, `wrapping_mul`, `wrapping_neg`, `wrapping_shl`, `wrapping_shr` |
| algebra/src/random.rs | Gaussian, Sample | A: `default`, `mean`, `std_dev`, `max_std_dev`, `gaussian`, `cbd_enable`; F: `gen_sample` |
| algebra/src/reduce/lazy_ops.rs | - | only traits |
| algebra/src/reduce/macros.rs | Assign, Gcd, Native, PrimReduce, Release, Word |  |
| algebra/src/reduce/mod.rs | - | A: `modulus` |
| algebra/src/reduce/ops.rs | LWE |  |
| algebra/src/transformation/concrete.rs | Counter, Transform |  |
| algebra/src/transformation/mod.rs | EvalForm, Transform |  |
| algebra/src/transformation/ntt_table.rs | Counter, NTT, ReleasePoly, Transform, Word, Work | A: `root`, `inv_root`, `coeff_count_power`, `coeff_count`, `inv_degree`, `root_powers`, `inv_root_powers`, `ordinal_root_powers` |
| algebra/src/utils/aes.rs | Aes, Block, Prg |  |
| algebra/src/utils/block.rs | Assign, Block, Prg | A: `as_mut` |
| algebra/src/utils/gcd.rs | Gcd, Release, Word |  |
| algebra/src/utils/prg.rs | Prg | A: `default` |
| algebra/src/utils/prime.rs | Prime |  |
| algebra/src/utils/reverse.rs | Reverse |  |
| algebra/src/utils/sample.rs | Release, Sample |  |
| algebra/src/utils/sse2neon.rs | Aes, Block |  |
| algebra_derive/src/ast.rs | Derive |  |
| algebra_derive/src/attr.rs | Derive, Field | T: `into_token_stream` |
| algebra_derive/src/basic.rs | Derive, Field, FieldEq | F: `set_zero`, `set_one`, `set_neg_one`; M: `basic`, `impl_zero`, `impl_one`, `impl_neg_one`; T: `clone`, `fmt`, `hash`, `display` |
| algebra_derive/src/decomposable_field.rs | Basis, Derive | M: `impl_decomposable_field` |
| algebra_derive/src/fhe_field.rs | Derive, Field | M: `impl_fhe_field` |
| algebra_derive/src/field.rs | Derive, Field | A: `value`; M: `impl_field` |
| algebra_derive/src/lib.rs | RLWE | M: `derive_field`, `derive_prime`, `derive_decomposable_field`, `derive_fhe_field`, `derive_ntt` |
| algebra_derive/src/ntt.rs | Cache, Derive, NTT, RLWE, Root, Threads, Transform | F: `from_root`, `to_root`, `mul_root`, `mul_root_assign`; M: `impl_ntt`, `impl_from_root`, `impl_to_root`, `impl_mul_root`, `impl_mul_root_assign` |
| algebra_derive/src/ops.rs | Assign, Derive, Field | M: `impl_modulus_config` |
| algebra_derive/src/prime.rs | Derive, Prime | M: `impl_prime` |
| bool/src/bfhe/evaluate.rs | Gates, LWE, ReleaseLWE, SecretKey, Session, Threads, Work | A: `parameters`; F: `bootstrap` |
| bool/src/decrypt.rs | Session, Threads |  |
| bool/src/encrypt.rs | Session, Threads |  |
| bool/src/key_gen.rs | Session, Threads |  |
| fhe_core/src/blind_rotation/binary.rs | BlindRotation, Scratch, Threads, Work | A: `new` |
| fhe_core/src/blind_rotation/mod.rs | Gates, SecretKey, Threads, Work | F: `binary`, `ternary` |
| fhe_core/src/blind_rotation/ternary.rs | BlindRotation, Scratch, Threads, Work | A: `new` |
| fhe_core/src/error.rs | Params |  |
| fhe_core/src/key_switch/lwe.rs | Gates, KeySwitch |  |
| fhe_core/src/key_switch/mod.rs | Gates |  |
| fhe_core/src/key_switch/rlwe.rs | Gates, KeySwitch, Scratch, Threads, Work |  |
| fhe_core/src/modulus_switch.rs | ModSwitch |  |
| fhe_core/src/parameter.rs | Gaussian, LWE, Params | A: `ring_modulus`, `ring_noise_standard_deviation`, `ring_secret_key_type`, `blind_rotation_basis`, `key_switching_basis_bits`, `key_switching_noise_standard_deviation`, `steps`, `lwe_params` |
| fhe_core/src/plaintext.rs | LWE, Plaintext |  |
| fhe_core/src/secret_key.rs | KeySwitch, LWE, Params, ReleaseLWE, SecretKey, Threads, Work | A: `lwe_secret_key`, `ring_secret_key`, `ntt_ring_secret_key`, `parameters` |
| fhe_core/src/utils.rs | Session |  |
| lattice/src/gadget/rlwe.rs | Basis, Elementwise, GadgetNew, KeySwitch, RGSW, RLWE, Release, Scratch, Threads, Work | A: `data`, `basis`, `iter`, `iter_mut` |
| lattice/src/lwe.rs | Elementwise, LWE, ReleaseLWE | A: `new`, `from_ref`, `a`, `a_mut`, `b`, `b_mut` |
| lattice/src/rgsw.rs | BlindRotation, Elementwise, RGSW, Release, Threads, Work | A: `from`, `new`, `from_ref`, `c_neg_s_m`, `c_m`, `c_neg_s_m_mut`, `c_m_mut`, `basis` |
| lattice/src/rlwe.rs | Elementwise, RGSW, RLWE, Scratch, Threads, Work | A: `from`, `default`, `new`, `from_ref`, `a`, `a_mut`, `b`, `b_mut`, `a_b_mut`, `a_slice`, `a_mut_slice`, `b_slice`, `b_mut_slice`, `a_b_mut_slices`, `dimension`; F: `zero`, `set_zero` |
| lattice/src/utils/decompose_basis.rs | FieldEq, KeySwitch | A: `decompose_len`, `mask`, `bits`, `basis` |
| lattice/src/utils/sample.rs | Gaussian, LWE, SecretKey | A: `mean`, `std_dev`, `max_std_dev` |
| lattice/src/utils/space.rs | BlindRotation, Scratch | A: `deref`, `deref_mut`, `get`, `get_mut`, `new` |

## Disagreements between the code and the properties

These are found by reading; each has a theorem exhibiting a concrete witness in
the model and a `_partial` theorem for the part that does hold.

* C08: Barrett `dot_product_reduce` uses `chunks_exact(16)` and never touches the
  remainder, so elements beyond the last multiple of 16 are dropped.
* C06: BabyBear `exp_reduce(a, 0)` returns the word 1 rather than the Montgomery
  form of 1.
* C13: Goldilocks `Reduce` compares with `>` and leaves P unreduced;
  `neg_reduce` underflows on non-canonical words; `try_inverse(P)` is `Some`.
* C16: `probably_prime` leaves the whole round loop (`break 'next_round`) as soon
  as one round passes in the squaring loop, so later rounds are skipped.
* C69: because of the same early exit, and because the first round always uses
  the same base, the documented error bound (1/4)^rounds is false: there are
  composites that `probably_prime` accepts with certainty for every number of
  rounds.
* C05: primitive `add_reduce` overflows for moduli above half the word range,
  although the documentation only requires operands below the modulus.
* C21: `decompose_at` stops at the first zero remainder and leaves stale digits.
* C29: `get_ntt_table` reads the shared map without taking the lock. C108 says which programs can race because of it: those that use transforms of two sizes. Both parameter sets of the library use one size only.
* C30/C45: `t = q` is accepted by `Parameters::new` but `decode` underflows.
* C24: the inverse transform underflows for n = 1 (log_n = 0).
* C07/C14: `extended_gcd` overflows its signed intermediates for operands above
  a quarter of the word range (u8: 65, 64), returns (0,0,0) when an operand is
  zero, and `try_inv_reduce` returns a wrong inverse in that range (u8: 95 mod 129).
* C19: `cbd` subtracts without wrapping, so it panics (or wraps in release) when
  the modulus is below 21 and the drawn difference is negative.
* C17: a trailing-bits count equal to the word width is rejected by the shift.
* C27: with modulus 2 the primitive-root predicate accepts 1 as a root of order 2.
* C26: `(2 i + 1) * degree` is a checked `usize` product, so the monomial
  transform panics for degrees around `2^63 / n`, although the exponent is only
  needed modulo `2 n`.
* C28: a panic in table generation (for example a size whose double does not
  fit the word) poisons the mutex, after which no new table can be created
  (`C28_poisoned`).
* C50: the polynomial inverse does not check invertibility; `0^(q-2) = 0` is
  used for vanishing evaluations.
* C45: besides `t = q`, `Parameters::new` accepts `q = 1`, and it never compares
  the given ring modulus with the modulus of the field type, so a foreign ring
  modulus is accepted (`C45_accepts_*`).
* C47: a byte request that ends inside a 32-bit word discards the rest of that
  word, so splitting requests at such a point changes the stream
  (`C47_byte_split_differs`).
* C53: a standard deviation of 0 is accepted but then the rejection test can
  never pass, so sampling does not return (`C53_zero_deviation`); moduli below
  the limit give words that are not residues or overflow (`C53_violations`).
* C55: `NTTTable::new` is public and safe but does not check how many powers it
  is given, so `get_unchecked` can read outside the table
  (`C55_public_constructor`).
* C56: a transform that has read the flag is still counted after disabling and
  clearing (`C56_late_addition`). The counters are only in the native table, so
  with the default features, where the default field uses the external library,
  nothing is counted (`C56_native_only`); the example `count_ntt`, run as its first
  line says, prints zeros.
* C58: a gadget destination of another basis is not rejected: it keeps its basis
  and its remaining elements (`C58_destination_kept`).
* C87: with a signed exponent type, a negative exponent is neither
  rejected nor taken as a power of the inverse: the sign is shifted in, and the
  result is the power given by `C87_barrett_signed_exp`
  (`C87_negative_exponent_witness`, `C87_goldilocks_negative_witness`).
