{
 "claims": [
  {
   "property": "C01",
   "status": "proved",
   "theorems": [
    "Ringo.C01_exp"
   ],
   "note": "Any monoid; all natural exponents (uint64 included)."
  },
  {
   "property": "C02",
   "status": "proved",
   "theorems": [
    "Ringo.C02_range",
    "Ringo.C02_zero_panics",
    "Ringo.C02_unbiased",
    "Ringo.C02_law"
   ],
   "note": "The unbounded rejection loop is a big-step relation; C02_law is about the same loop on a stream of independent uniform words."
  },
  {
   "property": "C03",
   "status": "proved",
   "theorems": [
    "Ringo.C03_injective",
    "Ringo.C03_surjective"
   ],
   "note": "The first k samples and the first 8k keystream bytes determine each other; every word sequence occurs."
  },
  {
   "property": "C04",
   "status": "partial",
   "theorems": [
    "Ringo.C04_partial",
    "Ringo.C04_refuted"
   ],
   "note": "Length and zeroed buffers are right; Read xors into the old contents, so the output reveals them."
  },
  {
   "property": "C05",
   "status": "proved",
   "theorems": [
    "Ringo.C05_sampleFloat"
   ],
   "note": "Floats are rationals with an arbitrary rounding that fixes representable numbers."
  },
  {
   "property": "C06",
   "status": "proved",
   "theorems": [
    "Ringo.C06_tail",
    "Ringo.C06_shift",
    "Ringo.C06_coset",
    "Ringo.C06_coset_exact"
   ],
   "note": "Table contents and the float comparison are arbitrary; |center| <= 2^62."
  },
  {
   "property": "C07",
   "status": "proved",
   "theorems": [
    "Ringo.C07_addVecTo",
    "Ringo.C07_subVecTo",
    "Ringo.C07_mulVecTo",
    "Ringo.C07_negVecTo",
    "Ringo.C07_scalarMulVecTo"
   ],
   "note": "Heap model with one cell per element; operands equal or disjoint."
  },
  {
   "property": "C08",
   "status": "proved",
   "theorems": [
    "Ringo.C08_bitReverse",
    "Ringo.C08_bitReverse_twice",
    "Ringo.C08_hangs_on_three"
   ],
   "note": "Power-of-two lengths; on length 3 the loop does not terminate."
  },
  {
   "property": "C09",
   "status": "proved",
   "theorems": [
    "Ringo.C09_refused",
    "Ringo.C09_cyclic",
    "Ringo.C09_cyclotomic"
   ],
   "note": "Both constructors, all primes."
  },
  {
   "property": "C10",
   "status": "proved",
   "theorems": [
    "Ringo.C10_cyclicForward"
   ],
   "note": "All primes and ranks 2^K >= 8."
  },
  {
   "property": "C100",
   "status": "proved",
   "theorems": [
    "Ringo.C100_mul",
    "Ringo.C100_mul_portable",
    "Ringo.C100_fromMont",
    "Ringo.C100_reduce",
    "Ringo.C100_mulBy3",
    "Ringo.C100_mulBy5",
    "Ringo.C100_mulBy13",
    "Ringo.C100_butterfly"
   ],
   "note": "The machine (instructions, flags, stack frame) is Model/Asm.lean; elements are disjoint in memory unless their pointers are equal."
  },
  {
   "property": "C101",
   "status": "partial",
   "theorems": [
    "Ringo.C101_thirteen",
    "Ringo.C101_mulBy3",
    "Ringo.C101_mulBy5",
    "Ringo.C101_mulBy13",
    "Ringo.C101_butterfly",
    "Ringo.C101_butterfly_self",
    "Ringo.C100_butterfly_self",
    "Ringo.C101_butterfly_differ"
   ],
   "note": "False for Butterfly with equal arguments: with assembly it leaves 2a, without it -a. For different arguments both leave (a+b, a-b) (C100_butterfly, C101_butterfly)."
  },
  {
   "property": "C102",
   "status": "proved",
   "theorems": [
    "Ringo.C102_mul",
    "Ringo.C102_mul_portable",
    "Ringo.C102_reduce",
    "Ringo.C102_butterfly",
    "Ringo.C102_butterfly_self"
   ],
   "note": "The machine is Model/Arm64.lean, the programs Model/AsmArm64.lean."
  },
  {
   "property": "C103",
   "status": "proved",
   "theorems": [
    "Ringo.C103_square",
    "Ringo.C103_nonsquare",
    "Ringo.C103_case"
   ],
   "note": "The loops are limited to fuel passes in the model; 96 are shown to suffice."
  },
  {
   "property": "C104",
   "status": "proved",
   "theorems": [
    "Ringo.C104_select",
    "Ringo.C104_lexLargest",
    "Ringo.C104_lexLargest_case",
    "Ringo.C104_uint64",
    "Ringo.C104_canonical",
    "Ringo.C104_unique",
    "Ringo.C104_marshal"
   ],
   "note": ""
  },
  {
   "property": "C105",
   "status": "proved",
   "theorems": [
    "Ringo.C105",
    "Ringo.C105_mult",
    "Ringo.C105_sqrt",
    "Ringo.C105_case"
   ],
   "note": "The bound on the number of passes is far from tight; it shows that the loop ends."
  },
  {
   "property": "C106",
   "status": "proved",
   "theorems": [
    "Ringo.C106_sound",
    "Ringo.case_sound_round",
    "Ringo.case_sound_ieee",
    "Ringo.ieee_ok"
   ],
   "note": "Overflow and underflow are not modelled. A panic in findMSISRank caused by rounding is possible only if a norm is within the tolerance of a power of two (newParameters_panic). C92_hang_round is the hang of C92 with rounding."
  },
  {
   "property": "C107",
   "status": "proved",
   "theorems": [
    "Ringo.C107_good",
    "Ringo.C107_case"
   ],
   "note": "The conditions are JEnv.Good, the hypothesis of C63-C67. Assumed of what is not modelled: JEnv.From (the oracle fills 16-byte buffers, ModUpQtoP, conversion of integers to float64 monotone within 2^-53)."
  },
  {
   "property": "C108",
   "status": "proved",
   "theorems": [
    "Ringo.C108_complete",
    "Ringo.C108_case"
   ],
   "note": "The primes lattigo returns are assumed to exceed the requested power of two by at most a sixteenth (NearPrimes). The case runs the protocol over the field of order 65537 for every oracle, point, polynomial and all samples within small bounds."
  },
  {
   "property": "C109",
   "status": "proved",
   "theorems": [
    "Ringo.C109_complete",
    "Ringo.C109_case"
   ],
   "note": "Joins C48_partial (through C48_run, in which acceptance by the commitment scheme is asked of the one proof) with C107 and C108; hypotheses are those of C48_partial on the circuit, NearPrimes and JEnv.From. Polynomials are ring elements here; Commit on limbs panics if the outer ring has more primes than the inner one (C96). The case is X*X = U over the field of order 65537 for every oracle, hash function, all randomness and every X."
  },
  {
   "property": "C11",
   "status": "proved",
   "theorems": [
    "Ringo.C11_cyclotomicForward"
   ],
   "note": "All primes and ranks 2^K >= 8."
  },
  {
   "property": "C110",
   "status": "proved",
   "theorems": [
    "Ringo.C110_write",
    "Ringo.C110_read",
    "Ringo.C110_roundTrip",
    "Ringo.C110_execute",
    "Ringo.C110_async",
    "Ringo.C110_async_ends",
    "Ringo.C110_async_errors",
    "Ringo.C110_case"
   ],
   "note": "The goroutines of AsyncReadFrom are workers advancing one element per step in any order; channels and atomics only carry the error count. The truncation of lengths of 2^32 and more is part of C110_roundTrip."
  },
  {
   "property": "C111",
   "status": "proved",
   "theorems": [
    "Ringo.C111_add",
    "Ringo.C111_sub",
    "Ringo.C111_mul",
    "Ringo.C111_scalarMul",
    "Ringo.C111_length",
    "Ringo.C111_sum",
    "Ringo.C111_inner",
    "Ringo.C111_less",
    "Ringo.C111_swap",
    "Ringo.C111_equal",
    "Ringo.C111_overlap_refuted",
    "Ringo.C111_scalar_refuted",
    "Ringo.C111_amd64_add",
    "Ringo.C111_amd64_sub",
    "Ringo.C111_amd64_pkgs",
    "Ringo.C111_amd64_empty",
    "Ringo.C111_case"
   ],
   "note": "Slices are element-aligned views of one memory. The AVX-512 kernels (mulVec, scalarMulVec, sumVec, innerProdVec) are not modelled."
  },
  {
   "property": "C112",
   "status": "partial",
   "theorems": [
    "Ringo.C112_accepts",
    "Ringo.C112_meaning",
    "Ringo.C112_refuted",
    "Ringo.C112_case"
   ],
   "note": "The part that fails is soundness (C112_refuted, a consequence of C36_refuted in the shipped example). Rank, prime, hash, randomness, orders and commitment scheme are parameters; the scheme is assumed correct (C109 for Jindo). The case is the program at rank 2^13 with its own prime."
  },
  {
   "property": "C113",
   "status": "partial",
   "theorems": [
    "Ringo.C113_accepts",
    "Ringo.C113_meaning",
    "Ringo.C113_refuted",
    "Ringo.C113_case",
    "Ringo.C113_refuted_case"
   ],
   "note": "The part that fails is the stated purpose of the example, proving a ciphertext well-formed (C113_refuted): the key is unconstrained. lattigo is not modelled: its key, message and ciphertext are parameters that satisfy the decryption equation. The case is the program at its own degree, plaintext modulus and field for every Q not below p."
  },
  {
   "property": "C114",
   "status": "proved",
   "theorems": [
    "Ringo.C114_view",
    "Ringo.C114_hiding",
    "Ringo.C114_reuse",
    "Ringo.C114_hiding_case",
    "Ringo.C114_view_case",
    "Ringo.C114_reuse_case"
   ],
   "note": "Counts of coins over the finite field, for decoded values. The distribution of the Gaussian parts of the encodings (noise flooding) and the computational hiding of the commitments are not covered."
  },
  {
   "property": "C115",
   "status": "proved",
   "theorems": [
    "Ringo.C115_values",
    "Ringo.C115_refuted_copy",
    "Ringo.C115_refuted_coeff",
    "Ringo.C115_refuted_bound",
    "Ringo.C115_refuted_bound_inf",
    "Ringo.C115_case"
   ],
   "note": "Refinement of the slice and pointer level to the value-level Context model used by the other claims; the refuted theorems show that the three conditions of the discipline are needed."
  },
  {
   "property": "C116",
   "status": "proved",
   "theorems": [
    "Ringo.C116_threads",
    "Ringo.C116_noRace",
    "Ringo.C116_args",
    "Ringo.C116_seeds",
    "Ringo.C116_history",
    "Ringo.C116_evaluate",
    "Ringo.C116_refuted_shared",
    "Ringo.C116_case"
   ],
   "note": "Programs of single reads and writes on a memory of objects; arithmetic is uninterpreted, so the theorems hold for every arithmetic. Rejection loops of the samplers have fuel, for every fuel. A sequentially consistent memory, which Go guarantees for programs without data races (C116_noRace). Verifiers are in C119."
  },
  {
   "property": "C117",
   "status": "proved",
   "theorems": [
    "Ringo.C117_text",
    "Ringo.C117_text_panic",
    "Ringo.C117_setString",
    "Ringo.C117_roundTrip",
    "Ringo.C117_prefix",
    "Ringo.C117_refuted_base",
    "Ringo.C117_marshalJSON",
    "Ringo.C117_unmarshalJSON",
    "Ringo.C117_json",
    "Ringo.C117_refuted_null",
    "Ringo.C117_vector",
    "Ringo.C117_case",
    "Ringo.C117_refuted_base_case"
   ],
   "note": "strconv.FormatUint, big.Int.Text and big.Int.SetString(s, 0) are written out from the standard library and part of the trusted base; that the latter reads exactly the integer literals of the Go specification is proved. A nil receiver is covered only for MarshalJSON."
  },
  {
   "property": "C118",
   "status": "proved",
   "theorems": [
    "Ringo.C118_elementLE",
    "Ringo.C118_putElementLE",
    "Ringo.C118_roundTripLE",
    "Ringo.C118_elementBE",
    "Ringo.C118_hash",
    "Ringo.C118_uniform",
    "Ringo.C118_setInterface",
    "Ringo.C118_case"
   ],
   "note": "ExpandMsgXmd of gnark-crypto is an arbitrary function; uniformity is relative to uniform output of it. The Go types of equal width and sign are one case of GoValue."
  },
  {
   "property": "C119",
   "status": "proved",
   "theorems": [
    "Ringo.C119_threads",
    "Ringo.C119_noRace",
    "Ringo.C119_args",
    "Ringo.C119_answer",
    "Ringo.C119_refuted_shared",
    "Ringo.C119_case"
   ],
   "note": "As C116: uninterpreted arithmetic, single reads and writes, sequentially consistent memory. The basis extender of lattigo is modelled as a table and a buffer that is written before it is read; that is an assumption on lattigo. The last sentence of the claim is C119_refuted_shared."
  },
  {
   "property": "C12",
   "status": "proved",
   "theorems": [
    "Ringo.C12_cyclicInverse",
    "Ringo.C12_cyclotomicInverse"
   ],
   "note": "All primes and ranks 2^K >= 8."
  },
  {
   "property": "C120",
   "status": "proved",
   "theorems": [
    "Ringo.C120_results",
    "Ringo.C120_noRace",
    "Ringo.C120_args",
    "Ringo.C120_pool",
    "Ringo.C120_ends",
    "Ringo.C120_refuted_oneBuffer",
    "Ringo.C120_case"
   ],
   "note": "The results alone are those of Model/Poly.lean, about which C14-C20 are proved. sync.Pool is modelled as a set of polynomials; Get returns any of them or a new one. A step is one read or write of a coefficient or flag; a sequentially consistent memory, which Go guarantees for programs without data races (C120_noRace). A goroutine may go on after a panic."
  },
  {
   "property": "C121",
   "status": "proved",
   "theorems": [
    "Ringo.C121_randomOracle",
    "Ringo.C121_bigEndian"
   ],
   "note": "The hash function is drawn at random among the functions from strings of at most n bytes, n at least the length of what is hashed; the byte stream for the projection matrix and the commitment scheme do not depend on it. That the messages have a fixed length and are injective is a hypothesis (C88 shows the same encoding of the rounds). Circuit and public witnesses are fixed before the hash function is: they are not hashed (findings 8 and 22). Jindo does not meet the hypothesis on the scheme (C86)."
  },
  {
   "property": "C122",
   "status": "proved",
   "theorems": [
    "Ringo.C122_randomOracle",
    "Ringo.C122_honest",
    "Ringo.C122_case"
   ],
   "note": "Batch size one and the conditions of C99: the key is binding and products do not wrap around are hypotheses, and short partial evaluations are a condition on the proof because Verify does not check it (C84). The function is drawn at random on a finite set of inputs, arbitrary but containing the input that Verify uses for the proof returned; its result is taken as sixteen bytes for each column, which is what the code reads from it. Nothing of the environment but the function depends on the draw."
  },
  {
   "property": "C123",
   "status": "proved",
   "theorems": [
    "Ringo.C123",
    "Ringo.C123_honest",
    "Ringo.C123_first",
    "Ringo.C123_randomOracle",
    "Ringo.C123_randomOracle_honest",
    "Ringo.C123_case",
    "Ringo.C123_rom_case"
   ],
   "note": "Conditions as in C99 and C122. Single values are not bound when they are chosen after the batching challenges (C85_refuted), which the code allows; C123_first says what is gained if they are chosen before. In the theorems on programs the function is arbitrary but fixed at the inputs of the batching challenges and drawn at random on a finite set of other inputs; the commitments have the number and size that Commit gives, because commitments of other sizes can be split differently in the same hashed message."
  },
  {
   "property": "C124",
   "status": "proved",
   "theorems": [
    "Ringo.C124",
    "Ringo.C124_honest",
    "Ringo.C124_case"
   ],
   "note": "Short partial evaluations are a condition as in C99 (the code does not check them, C84) and the values must be fixed before the batching challenges (the code draws these before, C85). That the keys are binding at the stated sizes and that nothing wraps around are hypotheses; the sizes are larger than those of C99 by the challenges that the extraction multiplies with."
  },
  {
   "property": "C125",
   "status": "proved",
   "theorems": [
    "Ringo.C125",
    "Ringo.C125_case"
   ],
   "note": "This is the protocol after two repairs; for the code as it is the claim is refuted (C85, C86). The challenges are drawn independently and uniformly; the transcript is not modelled here (C121 and C122 do that for each layer). Conditions of C124, and at least three matrix rows. The constraints are those that the checks enforce (C36, C40)."
  },
  {
   "property": "C126",
   "status": "proved",
   "theorems": [
    "Ringo.C126_smallest",
    "Ringo.C126_case",
    "Ringo.C126_case_two",
    "Ringo.C126_refuted_noPrimes"
   ],
   "note": "Conditions of C106; the generator finding its primes is a hypothesis, and C126_refuted_noPrimes shows what is returned otherwise. C126_case has one number of columns, C126_case_two has two, both candidates. Size() is the sum of the two estimates that the code stores; C128 compares the first with the bits of a commitment; nothing is claimed about the second."
  },
  {
   "property": "C127",
   "status": "proved",
   "theorems": [
    "Ringo.C127_complete",
    "Ringo.C127_case"
   ],
   "note": "The companion of C125 for honest provers. Conditions of C48_partial, and worst-case bounds on the sizes of the responses in place of the tail bounds of C109: randomness of size at most S must fit the norm bounds. Buckler challenges are the hashes of its transcript for an arbitrary hash function; the bytes of the Jindo challenges are arbitrary. C127_case has one instance for which both C125 and C127 hold."
  },
  {
   "property": "C128",
   "status": "proved",
   "theorems": [
    "Ringo.C128_comSize",
    "Ringo.C128_values",
    "Ringo.C128_case",
    "Ringo.C128_refuted"
   ],
   "note": "Conditions of C106; that the primes have at most one bit more than asked for is a hypothesis. C128_refuted is about the comment on CommitmentSize, which calls it the size: for every floating-point unit and prime generator it is at least 150 bits too small in the case of 16 coefficients. The bits of a coefficient are the logarithm of Q / 2^cut; C128_values shows that this counts the values of a truncated coefficient. What the code writes (entities.go:98) is every coefficient in full, which is more."
  },
  {
   "property": "C13",
   "status": "proved",
   "theorems": [
    "Ringo.C13_unrolled"
   ],
   "note": "All lengths 2^K >= 32 and all twiddle tables."
  },
  {
   "property": "C14",
   "status": "proved",
   "theorems": [
    "Ringo.C14_cyclicMul",
    "Ringo.C14_cyclotomicMul"
   ],
   "note": "All primes and ranks 2^K >= 8."
  },
  {
   "property": "C15",
   "status": "partial",
   "theorems": [
    "Ringo.C15_partial",
    "Ringo.C15_ntt_partial",
    "Ringo.C15_refuted"
   ],
   "note": "Holds for lengths divisible by eight; every other length is an out-of-bounds access."
  },
  {
   "property": "C16",
   "status": "partial",
   "theorems": [
    "Ringo.C16_partial",
    "Ringo.C16_cyclic_partial",
    "Ringo.C16_refuted"
   ],
   "note": "Holds for all histories in which accumulating calls get an accumulator in the form of the operands; otherwise the flag lies (refuted on every accepted ring)."
  },
  {
   "property": "C17",
   "status": "proved",
   "theorems": [
    "Ringo.C17_aut",
    "Ringo.C17_aut_coefficients",
    "Ringo.C17_aut_commutes_with_NTT",
    "Ringo.C17_even_panics"
   ],
   "note": "All primes, ranks 2^K >= 8, odd integers, both forms."
  },
  {
   "property": "C18",
   "status": "proved",
   "theorems": [
    "Ringo.C18_compose"
   ],
   "note": "Both forms."
  },
  {
   "property": "C19",
   "status": "proved",
   "theorems": [
    "Ringo.C19_quoRem"
   ],
   "note": "Ranks divisible by eight."
  },
  {
   "property": "C20",
   "status": "proved",
   "theorems": [
    "Ringo.C20_evaluate"
   ],
   "note": ""
  },
  {
   "property": "C21",
   "status": "proved",
   "theorems": [
    "Ringo.C21_modSwitch",
    "Ringo.C21_modSwitch_congr"
   ],
   "note": ""
  },
  {
   "property": "C22",
   "status": "proved",
   "theorems": [
    "Ringo.C22_marshal"
   ],
   "note": "For any fixed-width injective element encoding (the field encodings are C72)."
  },
  {
   "property": "C23",
   "status": "partial",
   "theorems": [
    "Ringo.C23_partial",
    "Ringo.C23_refuted",
    "Ringo.C23_small_bounds_panic"
   ],
   "note": "Refuted at |x| = B for every power-of-two bound (C23_refuted): the digit base sums to B-1. C23_partial is the property for all other values and bounds. Bounds 0 and 1 panic in decomposeBase."
  },
  {
   "property": "C24",
   "status": "proved",
   "theorems": [
    "Ringo.C24_digits_bounded"
   ],
   "note": ""
  },
  {
   "property": "C25",
   "status": "proved",
   "theorems": [
    "Ringo.C25_decode",
    "Ringo.C25_kinds",
    "Ringo.C25_fields"
   ],
   "note": "Indices are below 2^62 and the encoded value 2*id+3 is below the modulus (all shipped moduli exceed 2^64)."
  },
  {
   "property": "C26",
   "status": "proved",
   "theorems": [
    "Ringo.C26_alignment",
    "Ringo.C26_unexported"
   ],
   "note": "Exported fields (what reflect can set and read). C26_unexported shows what happens to an unexported witness field: Compile skips it silently and Prove panics."
  },
  {
   "property": "C27",
   "status": "partial",
   "theorems": [
    "Ringo.C27_refuted",
    "Ringo.C27_shift",
    "Ringo.C27_partial"
   ],
   "note": "Refuted: nested errors are dropped and the root is always a pointer, so no error ever reaches Prove or Verify; later witnesses shift into the wrong slot."
  },
  {
   "property": "C28",
   "status": "proved",
   "theorems": [
    "Ringo.C28_encode",
    "Ringo.C28_determines"
   ],
   "note": "Ranks 2^K >= 8; smaller ranks are C15."
  },
  {
   "property": "C29",
   "status": "proved",
   "theorems": [
    "Ringo.C29_randEncode"
   ],
   "note": "MustSetRandom is the parameter r; hiding is stated as: for every point outside the domain the opened value is a bijection of r."
  },
  {
   "property": "C30",
   "status": "proved",
   "theorems": [
    "Ringo.C30_nttChecker"
   ],
   "note": "Ranks 2^K >= 8."
  },
  {
   "property": "C31",
   "status": "proved",
   "theorems": [
    "Ringo.C31_autChecker"
   ],
   "note": "Ranks 8 <= 2^K <= 2^62; also: even indices make the constructor panic."
  },
  {
   "property": "C32",
   "status": "proved",
   "theorems": [
    "Ringo.C32_modInverse"
   ],
   "note": ""
  },
  {
   "property": "C33",
   "status": "proved",
   "theorems": [
    "Ringo.C33_projChecker",
    "Ringo.C33_projRecomposeChecker"
   ],
   "note": ""
  },
  {
   "property": "C34",
   "status": "proved",
   "theorems": [
    "Ringo.C34_noWrap"
   ],
   "note": "embRank is at least the rank of every constraint polynomial, so that products modulo X^embRank - 1 are exact."
  },
  {
   "property": "C35",
   "status": "proved",
   "theorems": [
    "Ringo.C35_arithComplete"
   ],
   "note": "For compiled circuits with at least one secret in some constraint (2^K < max rank), rank 2^K with K >= 3."
  },
  {
   "property": "C36",
   "status": "partial",
   "theorems": [
    "Ringo.C36_partial",
    "Ringo.C36_refuted"
   ],
   "note": "evalCircuit multiplies every constraint by the same batching challenge: only the sum of all constraints per row is enforced. C36_partial proves that; C36_refuted is a circuit whose two constraints cancel."
  },
  {
   "property": "C37",
   "status": "proved",
   "theorems": [
    "Ringo.C37_linComplete"
   ],
   "note": "For checkers meeting the interface contract (C30-C33) and jrank >= rank-1."
  },
  {
   "property": "C38",
   "status": "proved",
   "theorems": [
    "Ringo.C38_linSound"
   ],
   "note": "All four counts explicit: rank-1 values of linCheckConst, #constraints values of batchConst, degree-many points."
  },
  {
   "property": "C39",
   "status": "partial",
   "theorems": [
    "Ringo.C39_partial",
    "Ringo.C39_refuted"
   ],
   "note": "Holds if the declared sums add up to zero. The declared sums are never used: C39_refuted shows an honest proof of a nonzero sum rejected for every nonzero challenge."
  },
  {
   "property": "C40",
   "status": "partial",
   "theorems": [
    "Ringo.C40_partial",
    "Ringo.C40_refuted"
   ],
   "note": "Only the sum of all sumcheck constraints is enforced, and only against zero. C40_refuted: a circuit demanding sum 5 accepts the zero witness."
  },
  {
   "property": "C41",
   "status": "partial",
   "theorems": [
    "Ringo.C41_infSound",
    "Ringo.C41_partial",
    "Ringo.C41_refuted",
    "Ringo.C41_negative"
   ],
   "note": "Soundness holds for every bound >= 0. Completeness holds unless the bound is a power of two met with equality (C41_refuted); a negative bound adds no constraint at all (C41_negative)."
  },
  {
   "property": "C42",
   "status": "partial",
   "theorems": [
    "Ringo.C42_sqSound",
    "Ringo.C42_partial",
    "Ringo.C42_refuted",
    "Ringo.C42_small_bounds_panic"
   ],
   "note": "Soundness holds for a single two-norm constraint. Completeness fails for powers of two met with equality; bounds 0 and 1 panic."
  },
  {
   "property": "C43",
   "status": "partial",
   "theorems": [
    "Ringo.C43_partial",
    "Ringo.C43_refuted"
   ],
   "note": "Holds when at most one two-norm constraint is declared. The running square sum is not reset between constraints: C43_refuted shows an honest prover with two constraints failing."
  },
  {
   "property": "C44",
   "status": "partial",
   "theorems": [
    "Ringo.C44_partial",
    "Ringo.C44_refuted"
   ],
   "note": "Holds when the constrained witnesses are distinct. A second AddInfNorm on the same witness overwrites the first entry (C44_refuted)."
  },
  {
   "property": "C45",
   "status": "partial",
   "theorems": [
    "Ringo.C45_partial",
    "Ringo.C44_partial",
    "Ringo.C45_refuted"
   ],
   "note": "Completeness is part of C44_partial. Soundness holds if the digit witness is ternary (C45_partial), but the code never asks for that: C45_refuted shows any projection value is accepted."
  },
  {
   "property": "C46",
   "status": "proved",
   "theorems": [
    "Ringo.C46_transcript"
   ],
   "note": "for every successful run of Prove the verifier recomputes exactly the same list of challenges, for any PCS returning one evaluation per polynomial"
  },
  {
   "property": "C47",
   "status": "partial",
   "theorems": [
    "Ringo.C47_refuted",
    "Ringo.C47_false_statement"
   ],
   "note": "Refuted: challenges are a function of the proof alone; every accepted proof for the circuit U + X - X = 0 is accepted for another public vector, so a false statement is accepted."
  },
  {
   "property": "C48",
   "status": "partial",
   "theorems": [
    "Ringo.C48_partial",
    "Ringo.C48_refuted"
   ],
   "note": "Completeness of the whole protocol for every circuit whose constraints exceed the rank of a witness, for every correct PCS, hash and tape.  Fails (C48_refuted) for constraints on public witnesses only; further exclusions are refuted in C39, C41-C44."
  },
  {
   "property": "C49",
   "status": "partial",
   "theorems": [
    "Ringo.C49_partial",
    "Ringo.C49_refuted"
   ],
   "note": "Batch size and lengths hold for every successful run; non-emptiness fails when arithmetic constraints have degree below the rank."
  },
  {
   "property": "C50",
   "status": "partial",
   "theorems": [
    "Ringo.C50_partial",
    "Ringo.C50_refuted"
   ],
   "note": "Proofs with the right number of entries never panic; proofs without commitments always do."
  },
  {
   "property": "C51",
   "status": "partial",
   "theorems": [
    "Ringo.C51_partial",
    "Ringo.C51_refuted"
   ],
   "note": "Calls whose accesses to the shared projection matrix do not overlap use their own matrix; refuted for overlapping calls: the prover can project with the matrix of the verifier."
  },
  {
   "property": "C52",
   "status": "partial",
   "theorems": [
    "Ringo.C52_partial",
    "Ringo.C52_refuted"
   ],
   "note": "Assigned vectors are unchanged if the assignment has the shape of the compiled circuit; refuted for slices longer than at compile time."
  },
  {
   "property": "C53",
   "status": "proved",
   "theorems": [
    "Ringo.C53_divMod",
    "Ringo.C53_zero"
   ],
   "note": "an empty x is left alone even for y = 0"
  },
  {
   "property": "C54",
   "status": "proved",
   "theorems": [
    "Ringo.C54_roundtrip",
    "Ringo.C54_long"
   ],
   "note": ""
  },
  {
   "property": "C55",
   "status": "proved",
   "theorems": [
    "Ringo.C55_decode"
   ],
   "note": ""
  },
  {
   "property": "C56",
   "status": "proved",
   "theorems": [
    "Ringo.C56_add",
    "Ringo.C56_mul"
   ],
   "note": ""
  },
  {
   "property": "C57",
   "status": "proved",
   "theorems": [
    "Ringo.C57_matrix"
   ],
   "note": ""
  },
  {
   "property": "C58",
   "status": "partial",
   "theorems": [
    "Ringo.C58_partial",
    "Ringo.C58_every_partial",
    "Ringo.C58_single",
    "Ringo.C58_refuted",
    "Ringo.C58_case"
   ],
   "note": "the residues of (Q-1)/2 are reconstructed as -(Q+1)/2 if there are two moduli or more"
  },
  {
   "property": "C59",
   "status": "partial",
   "theorems": [
    "Ringo.C59_big",
    "Ringo.C59_partial",
    "Ringo.C59_refuted"
   ],
   "note": "setCoeffSigned does not reduce |c| >= q"
  },
  {
   "property": "C60",
   "status": "partial",
   "theorems": [
    "Ringo.C60_short",
    "Ringo.C60_onto",
    "Ringo.C60_plenty",
    "Ringo.C60_refuted",
    "Ringo.C60_refuted_panic"
   ],
   "note": "false for exponents 1 and above 60"
  },
  {
   "property": "C61",
   "status": "proved",
   "theorems": [
    "Ringo.C61_result",
    "Ringo.C61_panic",
    "Ringo.C61_two"
   ],
   "note": ""
  },
  {
   "property": "C62",
   "status": "proved",
   "theorems": [
    "Ringo.C62_truncate",
    "Ringo.C62_truncation"
   ],
   "note": ""
  },
  {
   "property": "C63",
   "status": "proved",
   "theorems": [
    "Ringo.C63_commit",
    "Ringo.C63_completeness",
    "Ringo.C63_bounded",
    "Ringo.C63_case"
   ],
   "note": "The lattigo rings are assumed to be the rings they implement (Spec/Lattigo, lawful_exists). C63_completeness has the norms of the integers behind the honest proof as hypotheses, C63_bounded derives them from a bound on the samples; C63_case is a concrete instance for every hash function."
  },
  {
   "property": "C64",
   "status": "proved",
   "theorems": [
    "Ringo.C64_special_soundness",
    "Ringo.C64_case"
   ],
   "note": ""
  },
  {
   "property": "C65",
   "status": "proved",
   "theorems": [
    "Ringo.C65_shape",
    "Ringo.C65_good"
   ],
   "note": "floating-point size estimates are arbitrary inputs of the model"
  },
  {
   "property": "C66",
   "status": "partial",
   "theorems": [
    "Ringo.C66_long",
    "Ringo.C66_partial",
    "Ringo.C66_refuted"
   ],
   "note": "refuted: Commit panics on the empty vector; all other lengths behave as documented"
  },
  {
   "property": "C67",
   "status": "proved",
   "theorems": [
    "Ringo.C67_found"
   ],
   "note": "the limits of the loops, computed in floating point, are arbitrary"
  },
  {
   "property": "C68",
   "status": "partial",
   "theorems": [
    "Ringo.C68_refuted",
    "Ringo.C68_partial"
   ],
   "note": "only primality is checked"
  },
  {
   "property": "C69",
   "status": "proved",
   "theorems": [
    "Ringo.C69",
    "Ringo.C69_square"
   ],
   "note": "All reduced elements, all numbers of words, both generated variants of Mul (portable code), any coincidence of the pointers; the assembly is in other claims."
  },
  {
   "property": "C70",
   "status": "proved",
   "theorems": [
    "Ringo.C70_add",
    "Ringo.C70_double",
    "Ringo.C70_sub",
    "Ringo.C70_neg"
   ],
   "note": "Both variants of Add (with and without a spare top bit), any coincidence of the pointers."
  },
  {
   "property": "C71",
   "status": "proved",
   "theorems": [
    "Ringo.C71_setBigInt",
    "Ringo.C71_setInt64",
    "Ringo.C71_setUint64",
    "Ringo.C71_bigInt",
    "Ringo.C71_slice",
    "Ringo.C71_roundTrip"
   ],
   "note": "All integers, every int64 and uint64; BigInt, Bits and Slice give the least nonnegative representative."
  },
  {
   "property": "C72",
   "status": "proved",
   "theorems": [
    "Ringo.C72_marshal",
    "Ringo.C72_setBytes",
    "Ringo.C72_roundTrip"
   ],
   "note": "All elements and all byte strings."
  },
  {
   "property": "C73",
   "status": "proved",
   "theorems": [
    "Ringo.C73",
    "Ringo.C73_equal"
   ],
   "note": "Also Equal."
  },
  {
   "property": "C74",
   "status": "proved",
   "theorems": [
    "Ringo.C74",
    "Ringo.C74_mult",
    "Ringo.inverts",
    "Ringo.inverts_mult",
    "Ringo.jindo_inv",
    "Ringo.bfv_inv",
    "Ringo.zp110_inv",
    "Ringo.zp220_inv",
    "Ringo.zp440_inv",
    "Ringo.zp880_inv"
   ],
   "note": "Binary GCD of six packages: the outer loop ends (explicit bound on the passes) and the result is the inverse whatever the loop computed, because of the final check; big.Int.ModInverse of mult is taken to compute the modular inverse. Portable Go code."
  },
  {
   "property": "C75",
   "status": "proved",
   "theorems": [
    "Ringo.C75_sign",
    "Ringo.C75_uniform"
   ],
   "note": ""
  },
  {
   "property": "C76",
   "status": "proved",
   "theorems": [
    "Ringo.C76_accept"
   ],
   "note": ""
  },
  {
   "property": "C77",
   "status": "proved",
   "theorems": [
    "Ringo.C77",
    "Ringo.C63_case"
   ],
   "note": "An equivalence. The integers behind the partial evaluations are those the reconstruction returns, see C58."
  },
  {
   "property": "C78",
   "status": "partial",
   "theorems": [
    "Ringo.C78_refuted",
    "Ringo.C78_refuted_batch",
    "Ringo.C78_case"
   ],
   "note": "False for exponents from 61 to 120 (such as the 64 of buckler/internal/zp880), for which all challenges are zero: any value can be proved, and for batches of two or more a proof of zeros is accepted for all commitments and values."
  },
  {
   "property": "C79",
   "status": "proved",
   "theorems": [
    "Ringo.C79_bfv",
    "Ringo.C79_mult",
    "Ringo.C79_jindo",
    "Ringo.C79_zp110",
    "Ringo.C79_zp220",
    "Ringo.C79_zp440",
    "Ringo.C79_zp880"
   ],
   "note": "Primality by Lucas certificates checked in the kernel."
  },
  {
   "property": "C80",
   "status": "proved",
   "theorems": [
    "Ringo.C80",
    "Ringo.C80_error",
    "Ringo.C80_uniform",
    "Ringo.C80_vector",
    "Ringo.C80_vector_uniform",
    "Ringo.mult_bits",
    "Ringo.jindo_bits",
    "Ringo.bfv_bits",
    "Ringo.zp110_bits",
    "Ringo.zp220_bits",
    "Ringo.zp440_bits",
    "Ringo.zp880_bits"
   ],
   "note": "crypto/rand.Reader is a list of bytes that ends when it fails."
  },
  {
   "property": "C81",
   "status": "proved",
   "theorems": [
    "Ringo.C81_halve",
    "Ringo.C81_div",
    "Ringo.C81_exp",
    "Ringo.C81_batchInvert"
   ],
   "note": "Stated for any correct Inverse; inverts and inverts_mult provide those of the packages."
  },
  {
   "property": "C82",
   "status": "proved",
   "theorems": [
    "Ringo.C82"
   ],
   "note": "The output of the extendable-output function is an arbitrary string; uniformity is the counting statement."
  },
  {
   "property": "C83",
   "status": "proved",
   "theorems": [
    "Ringo.C83",
    "Ringo.C83_norm"
   ],
   "note": "C83_norm keeps the digit constraint as a hypothesis, because the code does not impose it (C45)."
  },
  {
   "property": "C84",
   "status": "partial",
   "theorems": [
    "Ringo.C84_refuted",
    "Ringo.C84_refuted_honest",
    "Ringo.C84_honest",
    "Ringo.C84_case"
   ],
   "note": "False as stated: Verify puts no bound on the partial evaluations. A first message can be changed by a multiple of Q/q so that a wrong value is accepted for at least one in q of the byte strings behind the first challenge, for every NTT prime q of the ring (less than 2^62), whatever the other challenges are. The honest prover answers all challenges (C84_honest). An upper bound on the fraction for short partial evaluations is C99."
  },
  {
   "property": "C85",
   "status": "partial",
   "theorems": [
    "Ringo.C85_refuted",
    "Ringo.C85_values",
    "Ringo.C85_partial",
    "Ringo.C85_case"
   ],
   "note": "False for batches of two or more: the batching challenges do not depend on the claimed values and only the combination is checked, so the accepted vectors are exactly those with the same combination (C85_values). True for a batch of one (C85_partial)."
  },
  {
   "property": "C86",
   "status": "partial",
   "theorems": [
    "Ringo.C86_refuted",
    "Ringo.C86_case"
   ],
   "note": "False for every circuit with a linear or sum constraint (all norm and NTT gadgets add one): no challenge depends on Proof.Evals or on the public witnesses, and Jindo binds the evaluations by one linear equation only (C85), so honest commitments to arbitrary polynomials and one honest opening are completed to accepted proofs for every public witness, unless the hash outputs hit the exceptional values named in the theorem. C86_case is an accepted proof of a false statement. Soundness against a commitment scheme that fixes each evaluation is the subject of the other claims (C36-C40)."
  },
  {
   "property": "C87",
   "status": "proved",
   "theorems": [
    "Ringo.C87_zeroKnowledge",
    "Ringo.C87_case"
   ],
   "note": "Equality of the numbers of coins leading to a proof, for every proof whose evaluation point x (recomputed from the proof) has x^N not 1. The commitment scheme is any scheme that is correct and hides all but lengths and values (padPCS_hides gives one, plainPCS_shows one that is not hiding); that Jindo, whose hiding is computational, is close to such a scheme is not shown. The other hypotheses are those of C48_partial."
  },
  {
   "property": "C88",
   "status": "proved",
   "theorems": [
    "Ringo.C88_binding",
    "Ringo.C88_case",
    "Ringo.C88_jindo_verify",
    "Ringo.C88_jindo_evaluate",
    "Ringo.C88_jindo_binding",
    "Ringo.C88_jindo_case"
   ],
   "note": "The claimed evaluations and the public witnesses enter no challenge, which is why C86 fails. Serialisation of commitments is assumed to be injective and of constant length; gnark-crypto and the extendable-output functions are parameters."
  },
  {
   "property": "C89",
   "status": "proved",
   "theorems": [
    "Ringo.C89_sound",
    "Ringo.fixPCS_fixes",
    "Ringo.fixPCS_correct"
   ],
   "note": "What is enforced is weaker than what the circuit says where the batching is wrong (C36, C40: the sums of the constraints, not each of them). Jindo does not meet the hypothesis on the commitment scheme as it stands (C86). The exceptional sets are existentially quantified functions of exactly the messages preceding the challenge (C88), so for challenges that are uniform given these messages the bounds add up to a soundness error; the random oracle argument itself is not formalised."
  },
  {
   "property": "C90",
   "status": "proved",
   "theorems": [
    "Ringo.C90_interactive"
   ],
   "note": "The verifier with the challenges as arguments, verifyWith, is the model of Verify after the challenges have been hashed (verify_verifyWith). The projection matrix is fixed by any seed before the commitments, as Verify does not require anything else of it. Jindo does not meet the hypothesis on the scheme (C86)."
  },
  {
   "property": "C91",
   "status": "proved",
   "theorems": [
    "Ringo.C91_sound",
    "Ringo.newParametersR_shape",
    "Ringo.case_sound"
   ],
   "note": "Over the real numbers; C106 is the same with rounding. The hardness criterion is the one the code uses, not a security proof, and the norms of sums of n terms count sqrt n times as in the code (an average, not a worst case)."
  },
  {
   "property": "C92",
   "status": "partial",
   "theorems": [
    "Ringo.C92_hang",
    "Ringo.C92_hang_skip",
    "Ringo.C92_hang_round",
    "Ringo.case_hang_round",
    "Ringo.C92_no_panic_partial",
    "Ringo.C92_ends_partial",
    "Ringo.case_returns"
   ],
   "note": "False as stated, in two ways: for fields of order b + 1 with b no square and b >= 2^57 (or b >= 2^29 and batch >= 2) the modulus would need more than 240 bits and the loop over mu never ends, with rounding (C92_hang_round) as without; and the rank can be skipped when the modulus grows by a bit (the field of order 3, targetN 2981888, batch 4, 128 columns). Proved: it never panics after the arguments are accepted, and it returns if for each number of columns the bit length of the inner bound is at most 240 and does not change between ranks 1 and 33. Over the real numbers except C92_hang_round."
  },
  {
   "property": "C93",
   "status": "partial",
   "theorems": [
    "Ringo.C93_refuted",
    "Ringo.C93_refuted_pos",
    "Ringo.C93_grid_partial",
    "Ringo.case93"
   ],
   "note": "False as stated: the comparison of lines 99-107 sums to the table index v0 instead of the value v0 + tailLo, so that it always decides for the table of the center rounded down to a multiple of 1/128. Proved: the sampler is exact for the rounded-down center, except for at most 2 ceil(9 sigma) + 1 words; a lower bound for the number of words with a wrong sample. Real arithmetic; float rounding is not modelled."
  },
  {
   "property": "C94",
   "status": "partial",
   "theorems": [
    "Ringo.C94_refuted",
    "Ringo.C94_partial",
    "Ringo.C94_ends"
   ],
   "note": "False as stated: sampleRound compares yRound where the algorithm compares y, and so returns the integer nearest to the center although Sample has dealt with it. Proved: it ends with probability one, the probabilities of the other integers are in the right proportion, and the nearest integer is returned at least 1.8 times too often for every deviation of four or more. Uniform real numbers for the words, and a normal number for normFloat (see C95)."
  },
  {
   "property": "C95",
   "status": "partial",
   "theorems": [
    "Ringo.C95_refuted",
    "Ringo.C95_partial",
    "Ringo.C95_ends",
    "Ringo.C95_rounded_ends",
    "Ringo.C95_rounded_partial",
    "Ringo.case95"
   ],
   "note": "False as stated: init does not set fn[0] (it stays 0 instead of normal(0) = 1), so that the slow test of layer 1 always succeeds and the density is constant for |x| < xn[1], 0.16 < xn[1] < 0.29. Proved: this, that the distribution is in the right proportion outside of that interval, and that it returns with probability one. The tables are modelled with their recursion over the reals (bounds on all 127 entries are proved), the words as uniform reals."
  },
  {
   "property": "C96",
   "status": "partial",
   "theorems": [
    "Ringo.C96_refuted",
    "Ringo.C96_commit",
    "Ringo.C96_key",
    "Ringo.case96"
   ],
   "note": "False as stated: NewCommitment makes its polynomials in ringQ although outerCommitTo computes in ringQOut, so that Commit panics exactly when ringQOut has more primes than ringQ. NewParameters(1, 2) for the field of order 614657 = 28^4 + 1 returns such parameters (one prime of 59 bits inside, two outside). Proved: this, that Commit returns in all other cases, and the dimensions of the key. Model of the polynomials as arrays of limbs; lattigo operations panic if an operand has fewer limbs than the ring."
  },
  {
   "property": "C97",
   "status": "partial",
   "theorems": [
    "Ringo.C97_partial",
    "Ringo.C97_refuted",
    "Ringo.C97_accepts",
    "Ringo.case97"
   ],
   "note": "False as stated: no length of the proof is checked; with any other number of inner commitments than inComDcmpLen, or more polynomials of another kind than expected, Verify panics. Proved: this; it returns for every proof of the right shape, whatever its polynomials; and an accepted proof has that shape."
  },
  {
   "property": "C98",
   "status": "proved",
   "theorems": [
    "Ringo.C98"
   ],
   "note": "Words are independent and uniform on [0, 2^64); the generator itself (SHAKE) is not modelled. Degrees of both rings are equal (they are in NewParameters)."
  },
  {
   "property": "C99",
   "status": "proved",
   "theorems": [
    "Ringo.C99",
    "Ringo.C99_error",
    "Ringo.C99_honest",
    "Ringo.C99_case"
   ],
   "note": "Batch size one. That the key is binding (BindsIn, BindsOut, in the maximum norm) and that products do not wrap around (Room) are hypotheses: the first is the hardness assumption of the scheme, the second is not met by the parameters NewParameters computes, by a factor of 2^5 to 2^20 in these worst-case bounds. That the partial evaluations are short is a condition on the first message, since Verify does not check it (C84)."
  }
 ]
}