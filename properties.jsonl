{"id": "C01", "title": "bignum.Exp is exponentiation", "statement": "bignum.Exp(x, e) returns x^e in the field for every element x and every uint64 exponent, including e = 0 and x = 0, and leaves x unchanged.", "quantifier": "all field elements x and all 2^64 exponents e", "why_tests_cant": "2^64 exponents times a >100-bit field cannot be enumerated; a carry/shift slip shows on isolated exponents only", "anchors": ["math/bignum/bignum.go:Exp"]}
{"id": "C02", "title": "SampleN is in range and unbiased", "statement": "For every n >= 1 and every byte stream of the underlying generator, if UniformSampler.SampleN(n) returns, the result is < n; and over one 64-bit draw every residue in [0,n) is produced by exactly the same number of accepted words (no modulo bias). n = 0 panics.", "quantifier": "all n in uint64, all generator outputs", "why_tests_cant": "bias of a rejection sampler is a counting statement over 2^64 words; tests only see frequencies", "anchors": ["math/csprng/uniform.go:SampleN"]}
{"id": "C03", "title": "Sample loses no entropy of the keystream", "statement": "The sequence of uint64 values returned by k successive Sample calls is a bijective function of the first ceil(k/1024) keystream blocks: uniform keystream gives uniform samples, and equal seeds give equal sample sequences.", "quantifier": "all keystreams, all numbers of calls", "why_tests_cant": "a statement over all 8192-byte blocks and all call counts", "anchors": ["math/csprng/uniform.go:Sample", "math/csprng/uniform.go:NewUniformSamplerWithSeed"]}
{"id": "C04", "title": "Read returns keystream bytes", "statement": "UniformSampler.Read(p) fills p with generator output that does not depend on what p contained before, as an io.Reader must, and reports n = len(p).", "quantifier": "all buffers p (all previous contents), all generator states", "why_tests_cant": "tests read into freshly zeroed buffers; the dependence on old contents is invisible there", "anchors": ["math/csprng/uniform.go:Read"]}
{"id": "C05", "title": "SampleFloat is in [0,1)", "statement": "SampleFloat returns exactly (w mod 2^52)/2^52 for the drawn word w: always in [0,1), with no rounding error in any of its floating-point steps.", "quantifier": "all 2^64 words", "why_tests_cant": "2^64 inputs; rounding at the extremes (1.0) would be seen with probability 2^-52", "anchors": ["math/csprng/uniform.go:SampleFloat", "math/csprng/gaussian_rounded.go:floatPrec"]}
{"id": "C06", "title": "TwinCDT Gaussian samples are tail-bounded", "statement": "Every value returned by TwinCDTGaussianSampler.Sample(center) lies within ceil(9*stdDev)+1 of floor(center), and shifting the center by an integer k shifts the sample by k for the same random word. SampleCoset(center) returns an element of the coset center + Z within ceil(9*stdDev)+2 of zero that depends on the coset and the random word only, up to the rounding of its own float operations.", "quantifier": "all centers, all random words, all standard deviations", "why_tests_cant": "tail events have probability below 2^-50; no test run sees them", "anchors": ["math/csprng/gaussian_twin_cdt.go:Sample", "math/csprng/gaussian_twin_cdt.go:computeCDT", "math/csprng/gaussian_twin_cdt.go:SampleCoset"]}
{"id": "C07", "title": "Vector operations are element-wise, also in place", "statement": "addVecTo, subVecTo, negVecTo, scalarMulVecTo and mulVecTo (behind Add/Sub/Neg/ScalarMul/Mul) write out[i] = op(x0[i], x1[i]) for every i and nothing else, for every length (multiple of 8 or not), also when the output aliases an input.", "quantifier": "all lengths, all contents, all alias patterns where slices are equal or disjoint", "why_tests_cant": "unroll boundaries times alias patterns times all values", "anchors": ["math/bigpoly/vec.go", "math/bigpoly/base_op.go:AddTo", "math/bigpoly/base_op.go:MulTo"]}
{"id": "C08", "title": "bitReverseInPlace is the bit-reversal permutation", "statement": "For every slice of length 2^K, after bitReverseInPlace element i is the former element at the K-bit reversal of i; applying it twice restores the slice; it never panics on those lengths.", "quantifier": "all K, all contents", "why_tests_cant": "all sizes; swap-once logic (i<j) errs only on specific index pairs", "anchors": ["math/bigpoly/vec.go:bitReverseInPlace"]}
{"id": "C09", "title": "Transformers are built from primitive roots or refused", "statement": "For every prime modulus p and rank: if rank is not a power of two or 2*rank does not divide p-1, NewCyclicTransformer/NewCyclotomicTransformer panic; otherwise (rank >= 2 for the cyclic one) they return tables generated by a primitive rank-th (resp. 2*rank-th) root of unity.", "quantifier": "all primes p, all ranks", "why_tests_cant": "all primes; the search loop stops at the first candidate of wrong-looking order, only an argument over Z_p^* shows it is exactly primitive", "anchors": ["math/bigpoly/ntt.go:NewCyclicTransformer", "math/bigpoly/ntt.go:NewCyclotomicTransformer", "math/bigpoly/utils.go:isPowerOfTwo"]}
{"id": "C10", "title": "Cyclic forward NTT evaluates the polynomial", "statement": "CyclicTransformer.FwdNTTTo(out, v) sets out[i] = sum_j v[j] * (g^rev(i))^j, the evaluation of v at the i-th rank-th root of unity in bit-reversed order, for every rank the constructor accepts and every v. (For every rank >= 8 the constructor accepts; smaller ranks are C15.)", "quantifier": "all primes, all ranks 2^K, all inputs", "why_tests_cant": "all sizes and inputs; tests compare a few random polynomials at one size", "anchors": ["math/bigpoly/ntt.go:FwdNTTTo", "math/bigpoly/ntt.go:nttInPlace", "math/bigpoly/ntt.go:nttInPlaceRef", "math/bigpoly/ntt.go:nttInPlaceUnroll"]}
{"id": "C11", "title": "Negacyclic forward NTT evaluates at odd powers", "statement": "CyclotomicTransformer.FwdNTTTo(out, v) sets out[i] = sum_j v[j] * (psi^(2*rev(i)+1))^j with psi a primitive 2*rank-th root of unity. (For every rank >= 8 the constructor accepts; smaller ranks are C15.)", "quantifier": "all primes, all ranks 2^K, all inputs", "why_tests_cant": "as C10", "anchors": ["math/bigpoly/ntt.go:CyclotomicTransformer.FwdNTTTo", "math/bigpoly/ntt.go:NewCyclotomicTransformer"]}
{"id": "C12", "title": "Inverse NTT inverts the forward NTT both ways", "statement": "InvNTT(NTT(p)) = p and NTT(InvNTT(v)) = v for both transformers, every rank and every input. (For every rank >= 8 the constructor accepts; smaller ranks are C15.)", "quantifier": "all primes, ranks 2^K, inputs", "why_tests_cant": "all sizes and inputs", "anchors": ["math/bigpoly/ntt.go:InvNTTTo", "math/bigpoly/ntt.go:inttInPlaceRef", "math/bigpoly/ntt.go:inttInPlaceUnroll"]}
{"id": "C13", "title": "The unrolled NTT equals the reference NTT and stays in bounds", "statement": "For every length 2^K >= 32, the 8-way unrolled forward and inverse transforms return exactly what the simple loops return and never read or write outside the slice, although they use unsafe pointers without bounds checks.", "quantifier": "all K >= 5, all inputs, all twiddle tables of the same length", "why_tests_cant": "unsafe code: out-of-bounds access is silent, so no test result shows it", "anchors": ["math/bigpoly/ntt.go:nttInPlaceUnroll", "math/bigpoly/ntt.go:inttInPlaceUnroll"]}
{"id": "C14", "title": "NTT multiplication is ring multiplication", "statement": "InvNTT(Mul(NTT(a), NTT(b))) is the product of a and b modulo X^N-1 (cyclic evaluator) or X^N+1 (cyclotomic evaluator) for all a, b. (For every rank >= 8 the constructor accepts; smaller ranks are C15.)", "quantifier": "all primes, ranks, polynomial pairs", "why_tests_cant": "universal algebraic identity over all pairs", "anchors": ["math/bigpoly/base_op.go:MulTo", "math/bigpoly/cyclic.go", "math/bigpoly/cyclotomic.go"]}
{"id": "C15", "title": "Copies never touch memory outside the slice", "statement": "Poly.CopyFrom, FwdNTTTo and InvNTTTo only access elements of their arguments, for every rank the library accepts.", "quantifier": "all ranks", "why_tests_cant": "out-of-bounds access through unsafe.Pointer is silent", "anchors": ["math/bigpoly/poly.go:CopyFrom", "math/bigpoly/ntt.go:FwdNTTTo", "math/bigpoly/ntt.go:InvNTTTo"]}
{"id": "C16", "title": "The NTT flag always tells the truth", "statement": "After any sequence of evaluator operations that did not panic, a polynomial whose IsNTT flag is set holds the NTT of the ring element it stands for, and one whose flag is clear holds its coefficients.", "quantifier": "all sequences of evaluator operations on all polynomials", "why_tests_cant": "all histories; a mixed-domain accumulation is silent", "anchors": ["math/bigpoly/base_op.go", "math/bigpoly/poly.go:checkBinaryOperable", "math/bigpoly/poly.go:checkUnaryOperable"]}
{"id": "C17", "title": "Aut is the Galois automorphism in both domains", "statement": "Aut(p, idx) equals p(X^idx) mod X^N+1 for every odd idx, negative and larger than 2N included, in coefficient form and in NTT form (NTT(Aut(p)) = Aut(NTT(p))); even idx panics. (For every rank >= 8 the constructor accepts; smaller ranks are C15.)", "quantifier": "all primes, ranks, odd integers idx, polynomials", "why_tests_cant": "all indices and sizes; bit-reversed index arithmetic", "anchors": ["math/bigpoly/cyclotomic.go:AutTo", "math/bigpoly/cyclotomic.go:autTo", "math/bigpoly/cyclotomic.go:autNTTTo"]}
{"id": "C18", "title": "Automorphisms compose and invert", "statement": "Aut(Aut(p, a), b) = Aut(p, a*b) and Aut(Aut(p,a),b) = p whenever a*b = 1 mod 2N, in both domains. (For every rank >= 8 the constructor accepts; smaller ranks are C15.)", "quantifier": "all odd a, b, all p", "why_tests_cant": "all pairs of indices", "anchors": ["math/bigpoly/cyclotomic.go:AutTo"]}
{"id": "C19", "title": "QuoRemByVanishing is Euclidean division by X^N-1", "statement": "For every p in coefficient form and 1 <= N, the returned quo, rem satisfy p = quo*(X^N-1) + rem, with rem having no coefficient at or above N (so the division is the unique one); p itself is unchanged. (For every rank >= 8 the constructor accepts; smaller ranks are C15.)", "quantifier": "all ranks, all N >= 1, all p", "why_tests_cant": "all sizes/inputs; uniqueness is a mathematical statement", "anchors": ["math/bigpoly/cyclic.go:QuoRemByVanishing"]}
{"id": "C20", "title": "Poly.Evaluate evaluates", "statement": "p.Evaluate(x) equals sum_i p_i x^i for every coefficient-form p (empty included) and x, and panics for NTT-form p.", "quantifier": "all polynomials, all points", "why_tests_cant": "all inputs", "anchors": ["math/bigpoly/poly.go:Evaluate"]}
{"id": "C21", "title": "ModSwitch rounds to nearest", "statement": "ModSwitch maps each integer coefficient c modulo Q to the residue mod q of an integer nearest to c*q/Q (error at most 1/2), for all integers c, negative ones and non-reduced ones included, and respects congruence modulo Q.", "quantifier": "all integers c, all Q >= 1, all q", "why_tests_cant": "all integers; rounding errors only at ties/sign boundaries", "anchors": ["math/bigpoly/cyclotomic.go:ModSwitchTo"]}
{"id": "C22", "title": "Poly.Marshal is injective", "statement": "Two polynomials of the same rank have equal Marshal output iff they have the same coefficients.", "quantifier": "all polynomial pairs", "why_tests_cant": "collision freedom over all pairs", "anchors": ["math/bigpoly/poly.go:Marshal"]}
{"id": "C23", "title": "Every allowed value can be written in the norm-digit base", "statement": "For every bound B >= 2 given to AddInfNormConstraint and every field value of absolute value at most B, the prover's digits are all in {-1,0,1} and recombine to the value.", "quantifier": "all bounds B, all values |x| <= B, all moduli", "why_tests_cant": "bounds are arbitrary big integers; failing bounds are exactly the ones a random test misses or a round-number test hits", "anchors": ["buckler/utils.go:decomposeBase", "buckler/utils.go:decomposeBig", "buckler/context.go:AddInfNormConstraintBig"]}
{"id": "C24", "title": "Norm digits cannot express a value above the bound", "statement": "For every bound B, any assignment of digits in {-1,0,1} (resp. {0,1}) recombines to an integer of absolute value at most B (resp. in [0,B]).", "quantifier": "all bounds B >= 2, all digit vectors", "why_tests_cant": "exponentially many digit vectors for every B", "anchors": ["buckler/utils.go:decomposeBase", "buckler/linear.go:projRecomposeChecker"]}
{"id": "C25", "title": "Witness handles identify witnesses", "statement": "The handle Compile stores in a PublicWitness or Witness field is decoded by constraint-building calls to the index it was given, different fields get different indices, and no two kinds of handle share the encoded value.", "quantifier": "all indices below 2^62 and below the modulus, all moduli", "why_tests_cant": "all ids; encodes through the field's Montgomery form", "anchors": ["buckler/compile.go:idToWitness", "buckler/compile.go:witnessToID"]}
{"id": "C26", "title": "Assignments line up with the compiled circuit", "statement": "For every circuit value (nested structs, pointers, slices, arrays) whose assignment has the same shape and full-length witnesses, the prover and the verifier put each assigned vector in the slot whose handle Compile gave to the same field.", "quantifier": "all circuit shapes, all assignments of the same shape", "why_tests_cant": "all nesting structures", "anchors": ["buckler/compile.go:firstWalk", "buckler/compile.go:prvWalk", "buckler/compile.go:vrfWalk"]}
{"id": "C27", "title": "Wrong-length witnesses are rejected", "statement": "If any assigned witness has a length different from the compiled rank, Prove returns an error (and Verify returns false for public ones).", "quantifier": "all circuit shapes, all assignments with at least one wrong length", "why_tests_cant": "depends on where in the nested value the bad witness sits", "anchors": ["buckler/compile.go:prvWalk", "buckler/compile.go:vrfWalk", "buckler/prover.go:Prove"]}
{"id": "C28", "title": "Encode interpolates the witness", "statement": "Encoder.Encode(v) is a polynomial with no coefficient at or above rank whose value at the i-th domain point (cyclic NTT order) is v[i]; consequently its values on the domain determine v.", "quantifier": "all v, all ranks and embedding ranks", "why_tests_cant": "all inputs", "anchors": ["buckler/encoder.go:EncodeTo"]}
{"id": "C29", "title": "RandEncode keeps the values and hides the rest", "statement": "RandEncode(v) agrees with v on the whole domain for every random draw, has degree at most rank, and for every point x outside the domain its value at x is a bijective function of the random draw (so one opened evaluation reveals nothing about v).", "quantifier": "all v, all randomness, all points x", "why_tests_cant": "hiding is a statement over the whole distribution", "anchors": ["buckler/encoder.go:RandEncodeTo"]}
{"id": "C30", "title": "NTTChecker.TransposeTo is the transpose of TransformTo", "statement": "For all vectors u, v of length rank: <TransformTo(v), u> = <v, TransposeTo(u)>; TransformTo is the negacyclic NTT.", "quantifier": "all u, v, ranks, primes", "why_tests_cant": "bilinear identity over all vectors", "anchors": ["buckler/linear.go:nttChecker"]}
{"id": "C31", "title": "AutChecker.TransposeTo is the transpose of TransformTo", "statement": "For every odd automorphism index and both domains, <TransformTo(v), u> = <v, TransposeTo(u)> for all u, v.", "quantifier": "all u, v, ranks, odd indices (as uint64, negative ints included)", "why_tests_cant": "all indices; relies on a wrap-around modular inverse", "anchors": ["buckler/linear.go:autChecker", "buckler/linear.go:NewAutChecker"]}
{"id": "C32", "title": "modInverse is a modular inverse for power-of-two moduli", "statement": "For every power of two m <= 2^63 (the 2*rank it is called with) and every odd 64-bit x, modInverse(x, m) returns y < m with x*y = 1 mod m although its arithmetic wraps modulo 2^64; for even x it panics.", "quantifier": "all 64-bit x, all power-of-two m", "why_tests_cant": "2^64 inputs times moduli; wrap-around arithmetic", "anchors": ["buckler/linear.go:modInverse"]}
{"id": "C33", "title": "Projection checkers are adjoint", "statement": "For the random-projection and recomposition checkers, <TransformTo(v), u> = <v, TransposeTo(u)> for every projection matrix, digit base and all u, v of length rank >= 128.", "quantifier": "all projection matrices, bases, vectors", "why_tests_cant": "all matrices and vectors", "anchors": ["buckler/linear.go:projChecker", "buckler/linear.go:projRecomposeChecker"]}
{"id": "C34", "title": "No wrap-around in the embedding ring", "statement": "For every sequence of constraint-adding calls, the polynomial rank used by the compiled prover exceeds the degree of every constraint polynomial, so products computed with the cyclic NTT are the true polynomial products.", "quantifier": "all constraint sequences, all ranks", "why_tests_cant": "all circuits", "anchors": ["buckler/constraint.go:maxRank", "buckler/compile.go:Compile", "buckler/context.go:AddLinearConstraint"]}
{"id": "C35", "title": "Arithmetic check accepts satisfied circuits", "statement": "If every arithmetic constraint evaluates to zero on every row, the prover's quotient passes the verifier's arithmetic check at every batching challenge and every evaluation point, for all encoding randomness.", "quantifier": "all circuits, witnesses, challenges, randomness", "why_tests_cant": "universal over field-sized challenge space", "anchors": ["buckler/prover.go:evalCircuit", "buckler/prover.go:arithCheck", "buckler/verifier.go:arithCheck", "buckler/verifier.go:evalCircuit"]}
{"id": "C36", "title": "Arithmetic check enforces every constraint", "statement": "If committed polynomials pass the verifier's arithmetic check for more than a degree-bounded number of evaluation points (and non-zero batching challenge), then every single arithmetic constraint holds on every row of the committed witness.", "quantifier": "all circuits, all committed polynomials, all challenges", "why_tests_cant": "soundness is a statement about all cheating provers", "anchors": ["buckler/verifier.go:evalCircuit", "buckler/verifier.go:arithCheck"]}
{"id": "C37", "title": "Linear check accepts true linear relations", "statement": "If wOut = M wIn for every linear constraint, the prover's linear-check messages pass the verifier's linear check for every challenge, mask and encoding randomness.", "quantifier": "all checkers with correct transpose, witnesses, challenges, masks", "why_tests_cant": "universal over challenges and masks", "anchors": ["buckler/prover.go:linCheck", "buckler/prover.go:sumCheckMask", "buckler/verifier.go:linCheck"]}
{"id": "C38", "title": "Linear check rejects false relations except on few challenges", "statement": "If some linear constraint wOut = M wIn fails, then for all but at most rank-1 values of the linear-check challenge, all but at most #constraints values of the batching challenge and all but degree-many evaluation points, no choice of prover messages passes the verifier's check.", "quantifier": "all circuits, all cheating messages, all challenges", "why_tests_cant": "counting over a >100-bit challenge space and all cheating strategies", "anchors": ["buckler/verifier.go:linCheck"]}
{"id": "C39", "title": "Sumcheck accepts circuits whose sums are right", "statement": "If the declared sumcheck relation holds (each constraint sums to its declared value over the rows), an honest proof passes the verifier's sumcheck.", "quantifier": "all circuits, witnesses, challenges, masks, declared sums", "why_tests_cant": "universal over challenges and masks", "anchors": ["buckler/prover.go:sumCheck", "buckler/verifier.go:sumCheck", "buckler/context.go:AddSumCheckConstraintBig"]}
{"id": "C40", "title": "Sumcheck enforces the declared sums", "statement": "If the verifier's sumcheck passes beyond a bounded number of challenges, each sumcheck constraint sums to its declared value over the rows.", "quantifier": "all circuits, committed polynomials, declared sums", "why_tests_cant": "soundness over all cheating provers", "anchors": ["buckler/verifier.go:sumCheck", "buckler/context.go:sumCheckSums"]}
{"id": "C41", "title": "Infinity-norm constraint means what it says", "statement": "If all constraints added by AddInfNormConstraintBig(w, B) hold on a row, the signed value of w on that row has absolute value at most B (when 2B < p); conversely the honest prover can satisfy them for every |w| <= B.", "quantifier": "all B, all moduli, all witness rows", "why_tests_cant": "all bounds/values", "anchors": ["buckler/context.go:AddInfNormConstraintBig", "buckler/prover.go:Prove"]}
{"id": "C42", "title": "Squared two-norm constraint means what it says", "statement": "If the constraints added by AddSqNormConstraintBig(w, B) hold, the sum of w_i^2 modulo p is at most B; conversely the honest prover satisfies them for every w with squared norm at most B.", "quantifier": "all B, all moduli, all witnesses", "why_tests_cant": "all bounds/values", "anchors": ["buckler/context.go:AddSqNormConstraintBig", "buckler/prover.go:Prove"]}
{"id": "C43", "title": "Several two-norm constraints are independent", "statement": "With two-norm constraints on several witnesses, the honest prover's digit witnesses are right for each of them and do not depend on Go's map iteration order.", "quantifier": "all sets of constrained witnesses, all iteration orders", "why_tests_cant": "map iteration order is randomised by the runtime; a single constraint never shows it", "anchors": ["buckler/prover.go:Prove"]}
{"id": "C44", "title": "Norm constraints on the same witness compose", "statement": "Adding two infinity-norm constraints to the same witness yields a circuit whose honest proofs (for witnesses meeting both bounds) satisfy all the constraints.", "quantifier": "all pairs of bounds, all witnesses", "why_tests_cant": "combination of API calls", "anchors": ["buckler/context.go:AddInfNormConstraintBig", "buckler/context.go:infDcmpWitness"]}
{"id": "C45", "title": "Approximate infinity-norm constraint bounds the projection", "statement": "If the constraints added by AddApproxInfNormConstraint(w, B) hold, the random projections of w are bounded by rank*B.", "quantifier": "all B, all witnesses (also cheating ones)", "why_tests_cant": "soundness statement over all assignments of the auxiliary witnesses", "anchors": ["buckler/context.go:AddApproxInfNormConstraintBig", "buckler/linear.go:projRecomposeChecker"]}
{"id": "C46", "title": "Prover and verifier derive the same challenges", "statement": "For every circuit and honest run, the verifier recomputes from the proof exactly the challenges the prover used, in the same order.", "quantifier": "all circuits (all combinations of check kinds), all proofs", "why_tests_cant": "all combinations of constraint kinds and witness rounds", "anchors": ["buckler/prover.go:Prove", "buckler/verifier.go:Verify"]}
{"id": "C47", "title": "Challenges bind the public statement", "statement": "Two runs with different public witnesses have different transcripts (strong Fiat-Shamir): the challenges depend on the public inputs.", "quantifier": "all pairs of public assignments", "why_tests_cant": "statement about what is absent from a hash input", "anchors": ["buckler/prover.go:Prove", "buckler/verifier.go:Verify", "README.md"]}
{"id": "C48", "title": "Honest proofs verify", "statement": "For every compiled circuit and every assignment satisfying it, Verify(public part, Prove(assignment)) returns true for all randomness and all hash outputs, given a correct polynomial commitment scheme.", "quantifier": "all circuits, satisfying assignments, randomness, hash functions", "why_tests_cant": "universal over circuits, assignments and randomness", "anchors": ["buckler/compile.go:Compile", "buckler/prover.go:Prove", "buckler/verifier.go:Verify"]}
{"id": "C49", "title": "The commitment parameters fit the proof", "statement": "For every circuit, the number of polynomials the prover commits equals the batch size requested from the commitment scheme and none is longer than the requested rank, so proving never panics inside the commitment scheme.", "quantifier": "all circuits", "why_tests_cant": "all combinations of constraints", "anchors": ["buckler/context.go:batch", "buckler/context.go:commitRank", "buckler/prover.go:Prove"]}
{"id": "C50", "title": "Verify returns false on malformed proofs", "statement": "For every proof value, including ones with missing or extra entries, Verify returns true or false and does not panic.", "quantifier": "all proof values", "why_tests_cant": "attacker-chosen shapes", "anchors": ["buckler/verifier.go:Verify", "jindo/verifier.go:Verify"]}
{"id": "C51", "title": "Prover and Verifier from one Compile are independent", "statement": "Using the Prover and the Verifier returned by one Compile call in different goroutines gives the same results as running them one after the other.", "quantifier": "all interleavings", "why_tests_cant": "schedules", "anchors": ["buckler/compile.go:Compile", "buckler/prover.go:Prove", "buckler/verifier.go:Verify"]}
{"id": "C52", "title": "Prove does not modify the assignment", "statement": "Prove never writes to the witness vectors the caller assigned.", "quantifier": "all circuits and assignments", "why_tests_cant": "aliasing between caller slices and internal slots", "anchors": ["buckler/prover.go:Prove", "buckler/compile.go:prvWalk"]}
{"id": "C53", "title": "divMod64 is multi-word division", "statement": "divMod64(x, y) replaces the little-endian multi-word number x by floor(x/y) and returns x mod y, for every length and every y >= 1; y = 0 panics.", "quantifier": "all word vectors, all y", "why_tests_cant": "2^(64 n) inputs", "anchors": ["jindo/utils.go:divMod64"]}
{"id": "C54", "title": "Jindo encode/decode round-trips", "statement": "Decoding the encoding of any vector of at most `slots` field elements returns the vector (zero-padded); longer vectors panic.", "quantifier": "all vectors over all jindo-friendly primes", "why_tests_cant": "all field elements; digit p-1 edge case", "anchors": ["jindo/encoder.go:baseEncodeTo", "jindo/encoder.go:DecodeTo"]}
{"id": "C55", "title": "Randomised encodings decode to the message", "statement": "For every Gaussian sample drawn, the randomised encoding of v decodes to v as long as its coefficients stay below half the modulus.", "quantifier": "all vectors, all samples", "why_tests_cant": "statement over all randomness", "anchors": ["jindo/encoder.go:randEncodeTo", "jindo/encoder.go:DecodeTo"]}
{"id": "C56", "title": "Decoding is linear over the challenge ring", "statement": "Decoding commutes with addition and turns multiplication by a polynomial in X^slots into multiplication by its decoded scalar (over integers, before reduction mod Q wraps).", "quantifier": "all polynomials, all challenge polynomials", "why_tests_cant": "algebraic identity over all polynomials", "anchors": ["jindo/encoder.go:DecodeTo", "jindo/verifier.go:verifyEval", "jindo/prover.go:Evaluate"]}
{"id": "C57", "title": "The committed matrix evaluates to the polynomial", "statement": "For every coefficient vector v with 1 <= len(v) <= rank, every blinding row and every point x, left(x)^T * Matrix(v) * right(x) = v(x).", "quantifier": "all v, blinding rows, points, shapes (rows, cols, slots)", "why_tests_cant": "identity over all inputs and shapes", "anchors": ["jindo/prover.go:genFirstLastRow", "jindo/prover.go:commitColTo", "jindo/utils.go:leftVec", "jindo/utils.go:rightVec"]}
{"id": "C58", "title": "RNS reconstruction returns the balanced representative", "statement": "reconstructTo returns for every residue vector the unique integer in (-Q/2, Q/2] with these residues.", "quantifier": "all residue vectors, all moduli chains", "why_tests_cant": "all residues; off-by-one at the half point", "anchors": ["jindo/rns.go:reconstructTo", "jindo/rns.go:newRNSReconstructor"]}
{"id": "C59", "title": "setCoeffSigned and setBigCoeffTo write reduced residues", "statement": "Writing a signed integer c stores for every modulus q_i the reduced residue c mod q_i in [0,q_i).", "quantifier": "all integers c, all moduli", "why_tests_cant": "boundary values", "anchors": ["jindo/utils.go:setCoeffSigned", "jindo/rns.go:setBigCoeffTo"]}
{"id": "C60", "title": "Challenges are short and plentiful", "statement": "encodeChallengeTo maps 16 random bytes to a polynomial in X^slots with coefficients in (-B/2, B/2], B the challenge bound, every such polynomial being reached; the same bytes give the same integer polynomial in both rings; for every supported modulus the challenge space is not trivial.", "quantifier": "all byte strings, all parameter sets", "why_tests_cant": "2^128 inputs and all moduli", "anchors": ["jindo/utils.go:encodeChallengeTo", "jindo/params.go:ChallengeBound"]}
{"id": "C61", "title": "Encoding parameters recover base and exponent", "statement": "newEncodeParameters returns base, exp with base^exp = p-1, exp a power of two and base not a perfect square, or panics if base does not fit 64 bits, for every odd p >= 3.", "quantifier": "all moduli p", "why_tests_cant": "all p; termination", "anchors": ["jindo/params.go:newEncodeParameters"]}
{"id": "C62", "title": "Commitment truncation error is bounded", "statement": "Dropping the low k bits of a (signed) commitment coefficient and multiplying back by 2^k changes it by less than 2^k, in [0, 2^k), for every integer.", "quantifier": "all integers, all k", "why_tests_cant": "signs: arithmetic shift rounds towards minus infinity", "anchors": ["jindo/prover.go:commitColTo", "jindo/prover.go:outerCommitTo", "jindo/verifier.go:verifyInnerCommitment"]}
{"id": "C63", "title": "Honest Jindo openings verify", "statement": "For all polynomials, points, hash outputs and Gaussian samples for which the response norms meet the published bounds (and the batched partial evaluations, as integers, stay below Q/2), Verify accepts what Commit and Evaluate produced, for batch size one and more, and the values returned are those of the polynomials. In particular nothing panics.", "quantifier": "all polynomials, points, randomness, batch sizes", "why_tests_cant": "universal over randomness", "anchors": ["jindo/prover.go:Commit", "jindo/prover.go:Evaluate", "jindo/verifier.go:Verify"]}
{"id": "C64", "title": "Two answers to different challenges determine the opening", "statement": "From accepting transcripts with the same first message (same commitments, point, partial evaluations and batching challenges) and two different challenges in one column, either the inner commitments differ, and then their difference is a short vector in the kernel of the outer commitment matrix; or the difference equations hold: the challenge difference times the committed column is opened by the difference of the responses, consistently with the claimed partial evaluation (special-soundness extraction equation).", "quantifier": "all pairs of accepting transcripts", "why_tests_cant": "all cheating provers", "anchors": ["jindo/verifier.go:verifyConsistency", "jindo/verifier.go:verifyInnerCommitment"]}
{"id": "C65", "title": "Chosen parameters can hold the requested polynomial", "statement": "For every targetN >= 1 and every candidate NewParameters selects, rank = cols*(rows-1)*slots >= targetN and rows >= 2.", "quantifier": "all targetN, batch, moduli", "why_tests_cant": "all sizes", "anchors": ["jindo/params.go:NewParameters"]}
{"id": "C66", "title": "Commit accepts every polynomial up to rank", "statement": "Commit panics if len(v) > rank and otherwise pads with zeros, as documented, for every v including the empty one.", "quantifier": "all v", "why_tests_cant": "edge lengths", "anchors": ["jindo/prover.go:Commit", "jindo/prover.go:genFirstLastRow"]}
{"id": "C67", "title": "jindo-modulus -n finds usable moduli", "statement": "Whatever findModulus(bitStart, bitEnd) returns is p = b^k + 1 with k a power of two >= 2, b <= 2^25, bitStart <= bitlen(p) < bitEnd, p passing the primality test and 2^31 | p-1.", "quantifier": "all bit ranges", "why_tests_cant": "all ranges", "anchors": ["jindo-modulus/main.go:findModulus"]}
{"id": "C68", "title": "jindo-modulus -b/-k only emits usable moduli", "statement": "Whatever modulus main accepts from -b and -k supports an NTT of rank at least 2 and jindo encoding.", "quantifier": "all b, k", "why_tests_cant": "all b, k", "anchors": ["jindo-modulus/main.go:main"]}
{"id": "C69", "title": "Field multiplication is multiplication mod q", "statement": "The generated Mul returns, for all reduced inputs, the reduced Montgomery product x*y*R^-1 mod q (so the represented values multiply), for every limb count and odd modulus of the generated shape, including when output and inputs alias.", "quantifier": "all pairs of field elements, all limb counts", "why_tests_cant": "2^220 and more input pairs; rare carries", "anchors": ["examples/mult/zp/element_purego.go:Mul", "buckler/internal/zp110/element_purego.go:Mul", "jindo/internal/zp/element_purego.go:Mul"]}
{"id": "C70", "title": "Field add, sub, neg, double are exact and reduced", "statement": "Add, Sub, Neg and Double return the reduced representative of the mathematical result for all reduced inputs, with and without a spare top bit in the modulus.", "quantifier": "all pairs of field elements", "why_tests_cant": "carry/borrow chains with tiny failure probability", "anchors": ["examples/mult/zp/element.go:Add", "examples/mult/zp/element.go:Sub", "examples/mult/zp/element.go:Neg", "buckler/internal/zp110/element.go:Add"]}
{"id": "C71", "title": "Integer conversions of field elements round-trip", "statement": "SetBigInt/SetInt64/SetUint64 represent the given integer modulo q (negative included), BigInt and Slice return the reduced representative.", "quantifier": "all integers", "why_tests_cant": "all integers", "anchors": ["examples/mult/zp/element.go:SetBigInt", "examples/mult/zp/element.go:SetInt64", "examples/mult/zp/element.go:BigInt", "examples/mult/zp/element.go:Slice"]}
{"id": "C72", "title": "Byte encodings of field elements round-trip", "statement": "Marshal is a fixed-length big-endian encoding of the reduced value; SetBytes(Marshal(x)) = x; SetBytes of any byte string is its big-endian value mod q.", "quantifier": "all elements, all byte strings", "why_tests_cant": "all inputs", "anchors": ["examples/mult/zp/element.go:Marshal", "examples/mult/zp/element.go:SetBytes"]}
{"id": "C73", "title": "Cmp orders field elements", "statement": "Cmp returns -1/0/1 according to the reduced integer values; in particular Cmp = 0 iff the elements are equal.", "quantifier": "all pairs", "why_tests_cant": "all pairs", "anchors": ["examples/mult/zp/element.go:Cmp"]}
{"id": "C74", "title": "Inverse inverts", "statement": "Inverse(x)*x = 1 for every x != 0 and Inverse(0) = 0.", "quantifier": "all field elements", "why_tests_cant": "all elements", "anchors": ["examples/mult/zp/element.go:Inverse"]}
{"id": "C75", "title": "The ziggurat sampler uses independent uniform bits and an exact sign", "statement": "For every 64-bit word r drawn by normFloat, the sign bit b, the layer i and the mantissa j are taken from disjoint bit ranges (every triple (b, i, j) with b < 2, i < 128, j < 2^floatPrec comes from the same number of words), and int64((j^-b)+b) is exactly j for b = 0 and -j for b = 1, of absolute value below 2^53, hence exactly representable as float64.", "quantifier": "all 64-bit words", "why_tests_cant": "2^64 words", "anchors": ["math/csprng/gaussian_rounded.go:normFloat"]}
{"id": "C76", "title": "Exact meaning of acceptance", "statement": "For every compiled circuit and every proof with the right number of entries, Verify returns true if and only if the circuit type matches, the commitment scheme accepts the claimed evaluations at the last challenge x, and the arithmetic, linear and sum equations hold between the claimed evaluations and the evaluations at x of the encoded public inputs.  No other condition is checked and none is skipped.", "quantifier": "all circuits, public inputs, proofs, hash functions and commitment schemes", "why_tests_cant": "universal over adversarial proofs", "anchors": ["buckler/verifier.go:Verify", "buckler/verifier.go:evalCircuit", "buckler/verifier.go:linCheck", "buckler/verifier.go:sumCheck"]}
{"id": "C77", "title": "Exact meaning of Jindo acceptance", "statement": "Whatever commitments, values and proof Verify is given, if it returns true then the proof has the shape of an honest one and stands for integers whose two norms are below the published bounds, that open the batched outer commitment and the combined inner commitments up to the truncation remainders, whose combination by powers of x equals the combined partial evaluations, and whose partial evaluations decode to the batched value. Conversely, any such integers make Verify return true: no other condition is checked.", "quantifier": "all commitments, points, values, proofs, hash functions", "why_tests_cant": "universal over adversarial proofs; a dropped or extra check shows on no honest run", "anchors": ["jindo/verifier.go:Verify", "jindo/verifier.go:verifyOuterCommitment", "jindo/verifier.go:verifyInnerCommitment", "jindo/verifier.go:verifyConsistency", "jindo/verifier.go:verifyEval"]}
{"id": "C78", "title": "Jindo evaluations are bound to the commitment", "statement": "For every modulus the library accepts, having seen an accepted evaluation proof of a commitment at a point does not enable anybody to produce an accepted proof of a different value at the same point.", "quantifier": "all parameters, commitments, points and values", "why_tests_cant": "requires reasoning about all forged proofs; honest runs with weak parameters pass", "anchors": ["jindo/utils.go:encodeChallengeTo", "jindo/params.go:ChallengeBound", "jindo/verifier.go:Verify"]}
{"id": "C79", "title": "The shipped field packages have right constants", "statement": "For each of the seven generated field packages the modulus words spell the prime b^k+1 the package is generated for, qInvNeg is -q^-1 mod 2^64, rSquare is 2^(128n) mod q, One is 2^(64n) mod q, and the modulus has a spare top bit wherever the generated Mul or Add relies on it.", "quantifier": "all seven packages (and, with C69-C74, all elements of them)", "why_tests_cant": "primality of 880-bit numbers and a wrong constant that only shows on rare carries", "anchors": ["jindo/internal/zp/element.go:qElement", "examples/mult/zp/element.go:qInvNeg", "buckler/internal/zp880/element.go:rSquare", "buckler/internal/zp880/element.go:One"]}
{"id": "C80", "title": "SetRandom is uniform", "statement": "SetRandom (MustSetRandom) returns the first k-byte candidate read from the randomness source whose low bitLen bits are below q, skips rejected ones, reads nothing further, fails only if the source does; and every residue is the outcome of the same number of k-byte strings. Vector.SetRandom and MustSetRandom do the same for each element in turn: the elements are the first n accepted candidates, and every vector of n residues is the outcome of the same number of strings of n k bytes.", "quantifier": "all byte streams, all residues, all seven packages", "why_tests_cant": "uniformity over q ~ 2^110..2^880 outcomes", "anchors": ["jindo/internal/zp/element.go:SetRandom", "buckler/internal/zp880/element.go:MustSetRandom", "jindo/internal/zp/vector.go:SetRandom"]}
{"id": "C81", "title": "Halve, Div, Exp, BatchInvert", "statement": "Halve(z)+Halve(z)=z; Div(x,y)*y=x for y!=0 and Div(x,0)=0; Exp(x,k)=x^k for every integer k, negative powers by the inverse (0 for x=0); BatchInvert inverts every element and keeps zeros.", "quantifier": "all field elements, all integers k, all slices", "why_tests_cant": "all elements, in particular the odd elements whose sum with q overflows the words", "anchors": ["examples/mult/zp/element.go:Halve", "jindo/internal/zp/element.go:Exp", "jindo/internal/zp/element.go:BatchInvert", "jindo/internal/zp/element.go:Div"]}
{"id": "C82", "title": "The random projection matrix is uniform", "statement": "The 128 x rank bit matrix that Prove and Verify read from the extendable-output function takes every value for the same number, 2^(128 rank), of the 2^(256 rank) possible outputs: with uniform output its entries are independent fair bits.", "quantifier": "all ranks, all matrices", "why_tests_cant": "the number of outputs is astronomical; a wrong byte or bit index shows up only as correlated entries", "anchors": ["buckler/prover.go:168-176", "buckler/verifier.go:102-111"]}
{"id": "C83", "title": "A long vector has a long projection", "statement": "If some entry of the witness exceeds 2T in absolute value, the projection computed by projChecker has all its entries at most T for at most a 2^-128 part of the outputs of the extendable-output function. With T = rank * bound: for the same part at most there are ternary digits that satisfy the two linear relations added by AddApproxInfNormConstraint.", "quantifier": "all primes, all ranks >= 128, all vectors, all bounds", "why_tests_cant": "a statement about a probability of 2^-128", "anchors": ["buckler/linear.go:projChecker.TransformTo", "buckler/context.go:AddApproxInfNormConstraintBig", "buckler/prover.go:168-192"]}
{"id": "C84", "title": "Soundness error of Jindo", "statement": "The challenges of Jindo are made to have about 2^96 values (2^64 to 2^112, by package), so that a prover who has fixed its partial evaluations for a wrong value should be accepted for a fraction of about 1 in 2^96 of the challenges only: no first message (Partial, PartialMask) for values other than those of the committed polynomials can be completed to an accepted proof for more than a few challenges.", "quantifier": "all commitments, points, first messages, challenges", "why_tests_cant": "the fraction is far too small to be observed, and the first message that attains it is not one an honest prover sends", "anchors": ["jindo/verifier.go:Verify", "jindo/verifier.go:verifyConsistency", "jindo/verifier.go:verifyEval", "jindo/utils.go:encodeChallengeTo", "jindo/params.go:ChallengeBound"]}
{"id": "C85", "title": "A Jindo proof is a proof of one vector of values", "statement": "For fixed commitments and evaluation point, a proof that Verify accepts for a batch of claimed values is not accepted for any other batch of claimed values.", "quantifier": "all parameters, commitments, points, proofs and pairs of claimed value vectors", "why_tests_cant": "the other vectors that are accepted are the solutions of one linear equation with pseudo-random coefficients; changing a value at random finds none", "anchors": ["jindo/verifier.go:Verify", "jindo/verifier.go:verifyEval", "jindo/prover.go:Evaluate"]}
{"id": "C86", "title": "Buckler with Jindo is sound", "statement": "If Verifier.Verify accepts a proof for a circuit and public witnesses, with Jindo as the commitment scheme, then there are secret witnesses that satisfy the circuit, except for a negligible part of the outputs of the hash functions.", "quantifier": "all circuits, public witnesses, proofs (not only those of the honest prover) and hash functions", "why_tests_cant": "a test checks honest proofs and a few corrupted ones; the proofs that are wrongly accepted come from solving a linear equation in the claimed evaluations", "anchors": ["buckler/verifier.go:Verify", "jindo/verifier.go:Verify", "jindo/verifier.go:verifyEval", "buckler/prover.go:Prove"]}
{"id": "C87", "title": "Proofs say nothing about the secret witnesses", "statement": "For two assignments of a circuit with the same public witnesses that both satisfy the constraints, Prove returns each proof with the same probability, provided that the commitment scheme shows nothing but the values of the polynomials at the evaluation point and that this point is not one of the points carrying the witness.", "quantifier": "all circuits (any sequence of constraints), all pairs of satisfying assignments, all proofs, all hash functions, all map orders, all commitment schemes with perfect hiding and correctness", "why_tests_cant": "a leak of the witness does not change what is accepted, and equality of two distributions over all coins is not observable in runs; one missing random coefficient is enough to break it", "anchors": ["buckler/prover.go:Prove", "buckler/prover.go:sumCheckMask", "buckler/prover.go:linCheck", "buckler/prover.go:sumCheck", "buckler/prover.go:arithCheck", "buckler/encoder.go:RandEncodeTo"]}
{"id": "C88", "title": "Challenges are hashes of everything sent before", "statement": "Each challenge of Buckler is the hash of its name, the previous challenge, and the commitments (and mask sums) of its round; if the hash has no collision among these inputs, equal challenges imply equal commitments and mask sums of all rounds so far. Jindo's batching challenges depend only on the CRS, the commitments and the point, its column challenges in addition only on the partial evaluations, and these inputs determine all of them.", "quantifier": "all circuits, all pairs of proofs, all hash functions, all commitment schemes with an unambiguous serialisation; for Jindo all parameters, points, commitments and proofs", "why_tests_cant": "a message left out of the transcript (weak Fiat-Shamir) changes no honest run; only an attacker notices", "anchors": ["buckler/prover.go:Prove", "buckler/verifier.go:Verify", "jindo/prover.go:Evaluate", "jindo/verifier.go:Verify", "jindo/entities.go:writeTo"]}
{"id": "C89", "title": "Buckler is sound over a scheme that fixes the values", "statement": "Over a commitment scheme that accepts only the values at the evaluation point of the committed polynomials of at most Rank() coefficients, a proof accepted by Verify has commitments that encode a witness for which, with the public witnesses given to Verify, every linear constraint holds, the arithmetic constraints sum to zero on each row and the sumcheck constraints sum to zero over all rows, unless one of five challenges lies in a set of exceptions determined by the messages before it (for the linear batching constant also by the linear check point, which is drawn right after it): one value of the arithmetic batching constant, at most N-1 values of the linear check point, at most as many values of the linear batching constant as there are linear constraints, at most two of the sumcheck batching constant, and at most D evaluation points, D bounding the degrees of the checked identities.", "quantifier": "all circuits (any sequence of constraints), all public witnesses, all proofs whatever their origin, all hash functions, all commitment schemes fixing the values", "why_tests_cant": "tests try a handful of wrong proofs; soundness quantifies over all cheating provers and bounds the number of bad challenges", "anchors": ["buckler/verifier.go:Verify", "buckler/verifier.go:arithCheck", "buckler/verifier.go:linCheck", "buckler/verifier.go:sumCheck"]}
{"id": "C90", "title": "Soundness error of Buckler as an interactive protocol", "statement": "Over a commitment scheme that accepts only the values at the evaluation point of the committed polynomials, and with challenges that are chosen at random instead of hashed, a prover whose first commitments encode no witness for the constraints that Verify enforces (C89) is accepted for at most p^4 (N + 2 + L + D) of the p^5 possible challenges (arithmetic batching constant, linear batching constant and check point, sumcheck batching constant, evaluation point), however it chooses its later messages from the challenges it has seen: N is the rank, L the number of linear constraints and D bounds the degrees of the checked identities. So the verifier is wrong with probability at most (N + 2 + L + D)/p.", "quantifier": "all circuits, all public witnesses, all cheating provers with unbounded computation, all commitment schemes fixing the values", "why_tests_cant": "a bound on the number of accepting challenges for every strategy of the prover cannot be sampled", "anchors": ["buckler/verifier.go:Verify", "buckler/verifier.go:arithCheck", "buckler/verifier.go:linCheck", "buckler/verifier.go:sumCheck"]}
{"id": "C91", "title": "NewParameters returns parameters that fit each other", "statement": "Computed without rounding, and with a prime generator that finds its primes, NewParameters returns either the zero value or parameters such that: the two MSIS ranks lie between 1 and 33; the moduli of both rings exceed the norms for which the inner and outer commitments have to be binding (and so no response within the verifier's norm bounds wraps around), these norms being out of reach at the chosen ranks for root Hermite factor 1.005; moduli are sized to at most 240 bits; masks are wider than what they hide by the challenge bound; half of the verifier's bound for the response is the norm of a response with all coefficients at five times their (2 pi scaled) deviation; what LogInCutOff and LogOutCutOff cut off uses at most the other half; the cut-offs are not negative; and the matrix holds targetN coefficients.", "quantifier": "all targetN, all batch sizes, all field orders p >= 3, all prime generators that succeed", "why_tests_cant": "the search runs over unboundedly many shapes and ranks, tests use a handful of targetN and one field each", "anchors": ["jindo/params.go:NewParameters", "jindo/params.go:findMSISRank"]}
{"id": "C92", "title": "NewParameters returns", "statement": "For every targetN >= 1, batch >= 1 and every field whose order is b^k + 1 with b a 64-bit number, NewParameters returns.", "quantifier": "all targetN, all batch sizes, all fields accepted by newEncodeParameters", "why_tests_cant": "non-termination depends on the field; tests only use the generated friendly moduli", "anchors": ["jindo/params.go:NewParameters", "jindo/params.go:findMSISRank"]}
{"id": "C93", "title": "TwinCDT samples around the requested center", "statement": "Computed without rounding errors, TwinCDTGaussianSampler.Sample(center) maps the uniform 64-bit word u it draws to the quantile of the discrete Gaussian with the sampler's standard deviation around center: the integer at which the cumulative Gaussian mass passes u / 2^64 (up to the words that equal a table entry, and those beyond the mass of the table).", "quantifier": "all standard deviations > 0, all centers, all words", "why_tests_cant": "a shift of the center by less than 1/128 is far below what a statistical test of a few thousand samples can see", "anchors": ["math/csprng/gaussian_twin_cdt.go:Sample", "math/csprng/gaussian_twin_cdt.go:computeCDT", "math/csprng/gaussian_twin_cdt.go:NewTwinCDTGaussianSampler"]}
{"id": "C94", "title": "COSAC samples a discrete Gaussian", "statement": "If normFloat is normally distributed and the other draws are uniform, COSACSampler.Sample(center, stdDev) returns with probability one, and returns each integer x with a probability proportional to the Gaussian density exp(-(x-center)^2/(2 stdDev^2)).", "quantifier": "all centers, all standard deviations > 0, all integers", "why_tests_cant": "the claim is about probabilities, for all centers and deviations; tests only check that a sample lies in some range", "anchors": ["math/csprng/gaussian_cosac.go:Sample", "math/csprng/gaussian_cosac.go:sampleRound"]}
{"id": "C95", "title": "The ziggurat returns a normal number", "statement": "On uniform words, and computed without rounding errors, normFloat returns with probability one, and the number it returns has the standard normal distribution; RoundedGaussianSampler.Sample(center, stdDev) panics if stdDev <= 0 and otherwise returns an integer with the probability that a normal number with that center and deviation rounds to it.", "quantifier": "all measurable sets of results, all centers and deviations", "why_tests_cant": "the distribution of a rejection sampler with tables computed at start-up cannot be observed; a wrong table entry changes it by less than a percent", "anchors": ["math/csprng/gaussian_rounded.go:init", "math/csprng/gaussian_rounded.go:normFloat", "math/csprng/gaussian_rounded.go:Sample"]}
{"id": "C96", "title": "Commit fits its parameters", "statement": "On the parameters NewParameters returns, NewCommitKey(crs) returns a key with inMSISRank x rows, inMSISRank x mlweRank and outMSISRank x inComDcmpLen polynomials of the two rings with all residues reduced, and Prover.Commit of a vector with one to Rank entries returns a commitment.", "quantifier": "all parameters, all CRS, all keys, all vectors of length 1..Rank, all randomness", "why_tests_cant": "the numbers of primes of the two moduli come out of a search; the test suite runs one parameter set, where they agree", "anchors": ["jindo/entities.go:NewCommitKey", "jindo/entities.go:NewCommitment", "jindo/entities.go:NewOpening", "jindo/prover.go:Commit", "jindo/params.go:NewParameters"]}
{"id": "C97", "title": "Jindo Verify returns a verdict", "statement": "Jindo's Verify returns true or false for every proof, whatever the numbers and contents of its polynomials; it does not panic.", "quantifier": "all parameters, keys, oracles, points, commitments of the right length, claimed values and proofs", "why_tests_cant": "tests only verify proofs made by Evaluate, which have the right numbers of polynomials", "anchors": ["jindo/verifier.go:Verify", "jindo/verifier.go:verifyOuterCommitment", "jindo/entities.go:Proof"]}
{"id": "C98", "title": "The commitment key is uniform", "statement": "If the words of the generator seeded with the CRS are independent and uniform, NewCommitKey returns with probability one, and every key of the right dimensions with reduced residues is equally likely.", "quantifier": "all parameters with moduli below 2^64, all keys", "why_tests_cant": "a distribution over keys of many kilobytes cannot be observed; a modulus taken from the wrong ring or a skipped coefficient leaves a key that works but is not binding", "anchors": ["jindo/entities.go:NewCommitKey", "math/csprng/uniform.go:SampleN"]}
{"id": "C99", "title": "Bounded partial evaluations make Jindo's opening sound", "statement": "Suppose the commitment key is binding for short vectors and the moduli leave room for the products below. For every commitment there is one polynomial of degree at most Rank such that, for every point, a first message whose partial evaluations are short and whose claimed value is not that of the polynomial can be answered for at most about a 1/C share of the challenge bytes, C the number of challenges of a column; for a commitment made by Commit it is the committed polynomial, and the honest prover's first message is short and can be answered for all challenges.", "quantifier": "all parameters and keys meeting the bounds, batch size one, all commitments, points, claimed values, first messages and challenge bytes", "why_tests_cant": "quantifies over all cheating provers and counts challenge strings; tests run the honest prover only", "anchors": ["jindo/verifier.go:Verify", "jindo/verifier.go:verifyInnerCommitment", "jindo/verifier.go:verifyOuterCommitment", "jindo/verifier.go:verifyEval", "jindo/verifier.go:verifyConsistency"]}
{"id": "C100", "title": "The amd64 assembly computes in the field", "statement": "On amd64 the assembly of Mul, Square, fromMont, reduce, MulBy3, MulBy5, MulBy13 and Butterfly computes product, representative, reduction, 3a, 5a, 13a and the pair (a+b, a-b), in reduced form, and writes to no other element; Mul leaves exactly the words the portable code leaves.", "quantifier": "the four packages with assembly, all contents of registers, flags, stack and memory, processors with and without ADX, all elements in reduced form, all pointers (equal ones included; for Butterfly different ones)", "why_tests_cant": "a carry that is lost for one operand in 2^64 does not show up in random tests, and tests run one of the two code paths of the processor they happen to run on", "anchors": ["jindo/internal/zp/asm/element_4w/element_4w_amd64.s", "buckler/internal/zp110/asm/element_2w/element_2w_amd64.s", "buckler/internal/zp440/asm/element_7w/element_7w_amd64.s", "jindo/internal/zp/element_amd64.go:Mul"]}
{"id": "C101", "title": "The small field functions do the same with and without assembly", "statement": "The portable MulBy3, MulBy5, MulBy13 and Butterfly compute 3a, 5a, 13a and the pair (a+b, a-b), and the result does not depend on whether the package is built with assembly.", "quantifier": "all seven packages, all elements in reduced form, all pointers", "why_tests_cant": "the two variants are never in the same binary", "anchors": ["jindo/internal/zp/element_purego.go:MulBy3", "jindo/internal/zp/element_purego.go:MulBy5", "jindo/internal/zp/element_purego.go:MulBy13", "jindo/internal/zp/element.go:_butterflyGeneric"]}
{"id": "C102", "title": "The arm64 assembly computes in the field", "statement": "On arm64 the assembly of Mul, Square, reduce and Butterfly computes product, reduction and the pair (a+b, a-b), in reduced form, and writes to no other element; Mul leaves exactly the words the portable code leaves.", "quantifier": "the three packages with arm64 assembly, all contents of registers, carry and memory, all elements in reduced form, all pointers (equal ones included; for Butterfly different ones)", "why_tests_cant": "a carry that is lost for one operand in 2^64 does not show up in random tests, and the tests of the repository run on the architecture of the machine only", "anchors": ["jindo/internal/zp/asm/element_4w/element_4w_arm64.s", "buckler/internal/zp110/asm/element_2w/element_2w_arm64.s", "jindo/internal/zp/element_arm64.go:Mul"]}
{"id": "C103", "title": "Sqrt finds a root exactly of the squares", "statement": "z.Sqrt(x) ends; if *x is a square in the field it returns z, and *z holds an element whose square is the old *x; otherwise it returns nil and changes nothing. No other element changes.", "quantifier": "the seven field packages, all elements in reduced form, all pointers (z and x equal included)", "why_tests_cant": "the loop count depends on the order of an element in a group of size 2^40 to 2^96, and almost all random elements have the largest order; elements of small order are never sampled", "anchors": ["jindo/internal/zp/element.go:Sqrt", "examples/mult/zp/element.go:Sqrt", "buckler/internal/zp880/element.go:Sqrt"]}
{"id": "C104", "title": "Select, LexicographicallyLargest, IsUint64, Uint64, SetBytesCanonical", "statement": "Select(c, x0, x1) copies *x0 for c = 0 and *x1 otherwise. LexicographicallyLargest is true exactly if the least nonnegative representative exceeds that of the negative. IsUint64 is true exactly if the representative is below 2^64, and Uint64 is the representative modulo 2^64. SetBytesCanonical accepts a string exactly if it has the right length and stands for a number below the modulus, so that each element has one encoding, the one Marshal writes.", "quantifier": "all field packages, all elements in reduced form, all int c, all byte strings, all pointers", "why_tests_cant": "the boundary cases (p-1)/2 and (p+1)/2, p-1 and p, and the least int have negligible probability", "anchors": ["jindo/internal/zp/element.go:Select", "jindo/internal/zp/element.go:LexicographicallyLargest", "jindo/internal/zp/element.go:SetBytesCanonical", "jindo/internal/zp/element.go:IsUint64"]}
{"id": "C105", "title": "Legendre is the quadratic character", "statement": "z.Legendre() ends and returns 0 for zero, 1 for the other squares and -1 for the elements that are not squares; it is -1 exactly if Sqrt returns nil.", "quantifier": "the seven field packages, all elements in reduced form", "why_tests_cant": "the code runs a binary GCD on 64-bit approximations with intermediate values that may be negative; a wrong sign rule shows up only for rare combinations of signs and residues modulo 8", "anchors": ["jindo/internal/zp/element.go:Legendre", "jindo/internal/zp/element.go:approximateForLegendre", "examples/mult/zp/element.go:Legendre"]}
{"id": "C106", "title": "NewParameters with rounding returns parameters that fit each other", "statement": "With every floating-point operation rounded (relative error 2^-53, exact on 53-bit numbers; math.Log2 and math.Exp2 within 2^-50, exact on powers of two; with or without fused multiply-add), NewParameters returns either the zero value or parameters with the relations of C91 up to a relative tolerance of 2^-36 in the norms and with root Hermite factor 1.00500001 in place of 1.005; ranks, lengths and matrix sizes are exact.", "quantifier": "all fields of order at least 3, all targetN <= 2^47, all batches <= 2^53, every rounding that satisfies the bounds", "why_tests_cant": "the ceilings and floors of rounded logarithms, quotients and powers could be off by one for rare values; a test sees one rounding on one machine for a few parameters", "anchors": ["jindo/params.go:NewParameters", "jindo/params.go:findMSISRank"]}
{"id": "C107", "title": "What NewParameters and NewCommitKey return suits the protocol", "statement": "For every parameter set NewParameters returns (with rounded floating-point numbers) whose encoding has exponent at least 2, and every key NewCommitKey makes for it, the conditions under which jindo's theorems on Commit, Evaluate and Verify hold are met: all primes are odd, the degrees, slots and ranks fit, the key has the sizes the loops index, and the challenges are smaller than half of every prime they are reduced by, so that no residue wraps.", "quantifier": "all fields of order at least 3 with exponent between 2 and 64, all targetN <= 2^47, all batches <= 2^53, every rounding within the bounds, every common reference string, every oracle", "why_tests_cant": "a parameter set that breaks one of the conditions would need a particular field and batch; the tests use one field per example", "anchors": ["jindo/params.go:NewParameters", "jindo/entities.go:NewCommitKey", "jindo/utils.go:encodeChallengeTo", "jindo/prover.go:NewProver", "jindo/verifier.go:NewVerifier"]}
{"id": "C108", "title": "Honest proofs within the noise bounds of NewParameters are accepted", "statement": "For every parameter set NewParameters returns (with rounded floating-point numbers) whose encoding has exponent at least 2, a batch of polynomials with at most targetN coefficients each is committed to and evaluated without panic, the values are right, and Verify accepts the proof whenever no coefficient of the integers behind the responses exceeds the bound NewParameters computes with for it (five standard deviations, combinations counted with the square root of the number of terms). For a batch of one this is asked of the responses only, not of the inner commitment or the truncation errors, which always fit.", "quantifier": "all fields of order at least 3 with exponent between 2 and 64, all targetN <= 2^47, all batches <= 2^53, every rounding within the bounds, every common reference string, every oracle, all points, polynomials and samples", "why_tests_cant": "tests accept with overwhelming probability for the one parameter set they use; whether the two norm bounds leave room for every honest response within the noise bounds, after rounding and after the primes came out larger than requested, is a statement over all parameter sets and all responses", "anchors": ["jindo/params.go:NewParameters", "jindo/prover.go:Commit", "jindo/prover.go:Evaluate", "jindo/verifier.go:Verify"]}
{"id": "C109", "title": "Buckler over Jindo is complete from Compile to Verify", "statement": "Compile a circuit, ask NewParameters for the commit rank and batch size the compiled circuit needs, build the Jindo prover and verifier from what it returns, and run Buckler's Prove on an assignment that satisfies the constraints: Prove returns a proof whose commitments are commitments to the polynomials of the assignment and whose evaluations are their values at the point the transcript yields, and Buckler's Verify accepts it, given the same public witnesses, whenever the responses of the evaluation proof are within the bounds NewParameters computes with.", "quantifier": "all circuits in the cases of C48 (arithmetic, sum, linear, norm and approximate norm constraints), all satisfying assignments, all fields of odd order whose encoding has exponent between 2 and 64, every rounding within the bounds, every hash function and oracle, all randomness, every common reference string", "why_tests_cant": "the interface between the two halves (rank and batch of the circuit against rank, slots and batch of the parameters, which commitments are opened at which point in which order) is exercised by tests for a handful of circuits and one parameter set each", "anchors": ["buckler/compile.go:Compile", "buckler/prover.go:Prove", "buckler/verifier.go:Verify", "jindo/params.go:NewParameters", "jindo/prover.go:Evaluate", "jindo/verifier.go:Verify"]}
{"id": "C110", "title": "Encoding of vectors of field elements", "statement": "Vector.WriteTo writes the number of elements as four bytes, most significant first, and then each element as its residue in big-endian bytes; ReadFrom returns exactly the vector that was written if it has fewer than 2^32 elements, leaves the reader after it, and reports an error for input that ends early or contains an element not below the modulus; AsyncReadFrom returns the same vector and the same success or failure as ReadFrom for every number of processors and every schedule of its goroutines, and always finishes. From 2^32 elements on, the length wraps and the rest is dropped without an error.", "quantifier": "all field packages, all vectors, all byte streams, all numbers of processors, all interleavings of the goroutines", "why_tests_cant": "tests round-trip a few short vectors on one machine with one schedule; lengths of 2^32 cannot be tested", "anchors": ["buckler/internal/zp110/vector.go:WriteTo", "buckler/internal/zp110/vector.go:ReadFrom", "buckler/internal/zp110/vector.go:AsyncReadFrom", "buckler/internal/zp110/vector.go:execute"]}
{"id": "C111", "title": "Arithmetic of vectors of field elements, also in place and in assembly", "statement": "Vector.Add, Sub and Mul write the element-wise sum, difference and product and change nothing else, as long as the result does not begin strictly inside an operand; ScalarMul likewise if the scalar is not one of the result's elements before the last; Sum, InnerProduct, Less, Swap and Equal are what their names say; operations panic exactly if the lengths differ. The amd64 assembly loops addVec and subVec terminate and leave the same memory as the portable code for every non-empty input and every overlap. Overlapping otherwise, ScalarMul by an element of the vector itself, and empty vectors on amd64 go wrong as described.", "quantifier": "all field packages, all lengths, all placements of the slices in memory, all values, all initial register contents", "why_tests_cant": "tests use fresh vectors of a few lengths; overlap, aliasing of the scalar, empty vectors and the agreement of assembly with portable code over all values are not exercised", "anchors": ["buckler/internal/zp110/vector.go:addVecGeneric", "buckler/internal/zp110/vector.go:scalarMulVecGeneric", "jindo/internal/zp/vector_amd64.go:Add", "jindo/internal/zp/asm/element_4w/element_4w_amd64.s:addVec", "jindo/internal/zp/asm/element_4w/element_4w_amd64.s:subVec"]}
{"id": "C112", "title": "The multiplication example", "statement": "The program examples/mult prints true for every value its random draws can take, for every rank 2^K >= 8, every prime with enough roots of unity, every hash function, all prover randomness, every map iteration order and every correct commitment scheme for 12 polynomials of rank 2N+1 (the sizes its circuit requests). The constraints its Define adds hold exactly if XNTT and ZNTT are the transforms of X and Z, Z = XY modulo X^N+1, and all coefficients of X are at most 5 in absolute value. An accepted proof is no evidence for this: for every X and Y, also with large X, the library's own prover gets a proof accepted with some Z, and if X exceeds the bound then Z is not the product.", "quantifier": "all ranks, primes, random draws, hash functions, prover randomness, iteration orders, commitment schemes; all X and Y for the refutation", "why_tests_cant": "running the example shows one draw with one scheme and one hash function; no run shows what the constraints mean or that wrong statements are accepted for every X and Y", "anchors": ["examples/mult/main.go:main", "examples/mult/main.go:Define", "buckler/compile.go:Compile", "buckler/prover.go:evalCircuit"]}
{"id": "C113", "title": "The BFV example", "statement": "The program examples/bfv prints true whenever lattigo hands it an encryption ct0 + ct1*sk = tInv*pt + e modulo (Q, X^N+1) with a ternary key, a centred message and an error that is at most (N+t)/2-1 after scaling by p/Q: the declared error bound N+t covers the rounding errors of ModSwitch and of delta. The constraints its Define adds hold exactly if MessageNTT and ErrorNTT are the transforms of M and E, C0 + C1 S = delta M + E modulo X^N+1, and the coefficients of M and E are within t-1 and the error bound. An accepted proof says nothing about the content of the ciphertext: nothing bounds the secret key, and for every ciphertext with invertible second component every message within the bound has an accepted proof.", "quantifier": "all degrees 2^K >= 8, plaintext moduli t >= 3, ciphertext moduli, primes with enough roots of unity, keys, messages, ciphertexts, hash functions, prover randomness, iteration orders and correct commitment schemes", "why_tests_cant": "running the example shows one encryption; it does not show that the error bound always suffices, what the constraints mean, or that every message is provable for the same ciphertext", "anchors": ["examples/bfv/main.go:main", "examples/bfv/main.go:Define", "math/bigpoly/cyclotomic.go:ModSwitch", "buckler/compile.go:Compile"]}
{"id": "C114", "title": "Jindo openings hide the polynomials at the level of decoded values", "statement": "The partial evaluations, the partial evaluation of the masks and the responses of a proof returned by Evaluate decode to fixed combinations of the committed matrices and the masks. With the last rows and the masks drawn uniformly by Commit, the joint distribution of all these field elements depends on the polynomials of the batch only through their lengths and their values at the point, for all batching challenges and however the column challenges are computed from the partial evaluations. This holds for one proof per opening: with one column and one polynomial, the responses of two proofs from the same opening with different challenges determine the polynomial.", "quantifier": "all matrix shapes, points (also 0), batches, vectors that fit (also shorter than the matrix), challenges, and all transcripts", "why_tests_cant": "a distribution over all coins and all transcripts; a missing or misplaced blinding entry still gives proofs that verify", "anchors": ["jindo/prover.go:genFirstLastRow", "jindo/prover.go:commitColTo", "jindo/prover.go:Evaluate", "jindo/encoder.go:decodeTo"]}
{"id": "C115", "title": "The context keeps the constraints and bounds it was given", "statement": "Let a circuit's Define extend every ArithmeticConstraint that already has terms in at most one of its copies, and write neither to a coefficient after AddTermWithConst nor to a *big.Int bound after AddInfNormConstraintBig/AddSqNormConstraintBig. Then, whatever capacities append chooses, the constraints, ranks and bounds that Compile, Prove and Verify later read from memory are those of the same calls with every argument at its value at the time of the call. Each condition is needed: with Go's capacities, two copies of a constraint of three terms extended by x and y give a context holding y twice and x never; a coefficient or bound that is written to again changes the constraint added before.", "quantifier": "all programs of constraint, element and big-integer variables, all allocation policies of append, all contexts", "why_tests_cant": "aliasing depends on capacities and on the order of statements; circuits that happen to have 1, 2 or 4 common terms do not show it", "anchors": ["buckler/constraint.go:33-53", "buckler/context.go:79-94", "buckler/context.go:112-144", "buckler/context.go:165-196", "buckler/prover.go:77-90", "buckler/prover.go:362-370", "buckler/verifier.go:49", "buckler/verifier.go:225-231"]}
{"id": "C116", "title": "Copies of a Jindo prover can be used by different goroutines", "statement": "Let one NewProver and any number of SafeCopy calls, on the first prover or on copies, make provers, and let each be used by one goroutine that calls Commit and Evaluate any number of times, with arguments that depend on earlier results; vectors, commitments, openings, parameters and the commitment key may be shared. Under every interleaving of the individual reads and writes each goroutine gets what it would get running alone, no two accesses of different goroutines to one address include a write, and neither the shared objects nor the commitment key change. The seven samplers of each prover have states and seeds of their own, all seeds read separately from crypto/rand. What a call returns depends only on the arguments and the prover's samplers, not on what the buffers hold, and Evaluate returns the same on every copy. With one prover shared by two goroutines all this fails: Evaluate can return a wrong proof.", "quantifier": "all numbers and orders of copies, all clients, all schedules, all parameters with slots <= N, all field/ring/sampler arithmetic", "why_tests_cant": "schedules are unbounded in number and the race detector sees one at a time; stale buffers show only after particular histories", "anchors": ["jindo/prover.go:28-62", "jindo/prover.go:65-202", "jindo/prover.go:205-340", "jindo/encoder.go:49-201", "jindo/encoder.go:222-236", "jindo/rns.go:33-127", "math/csprng/gaussian_twin_cdt.go:51-129", "math/csprng/gaussian_cosac.go:15-57", "math/csprng/gaussian_rounded.go:61-125", "math/csprng/uniform.go:26-100"]}
{"id": "C117", "title": "Field elements as text and JSON", "statement": "For every element of every field package and every base from 2 to 36, Text(base) is the least nonnegative representative in that base, except that in base 10 a minus sign and the negative are written if the negative is between 1 and 65535; other bases panic. SetString(s) succeeds exactly if s is an integer literal of Go with an optional sign, and sets its residue, reduced. SetString reads what String has written, and what Text(2), Text(8) and Text(16) have written behind the prefix of the base; without prefix it does not: in every base b but 10, the text of the element b is read as 10. MarshalJSON writes a number only if it is below 10^15 in absolute value, a string otherwise, and UnmarshalJSON reads both back; UnmarshalJSON accepts exactly signed integer literals of at most 3*Bits bytes with or without a quotation mark on either side, and refuses the null that MarshalJSON writes for a nil pointer. Vector.String writes the elements with commas between brackets, and vectors with the same text are equal.", "quantifier": "all packages with valid constants (the seven packages of the repository are), all elements, all bases, all strings, all vectors", "why_tests_cant": "strings and elements are unbounded; the generated tests sample elements and never try literals with underscores, unbalanced quotation marks or bases other than 10", "anchors": ["jindo/internal/zp/element.go:799-846", "jindo/internal/zp/element.go:981-1060", "jindo/internal/zp/vector.go:246-257", "examples/bfv/zp/element.go:820-846", "examples/mult/zp/element.go:703-729"]}
{"id": "C118", "title": "Field elements from hashes, byte orders and values of other types", "statement": "LittleEndian.Element and BigEndian.Element accept exactly the byte strings whose number is below the modulus and return that element; PutElement writes the least nonnegative representative, little-endian the bytes of Marshal in the opposite order, and Element reads it back. Hash(msg, dst, count) returns count elements, each the residue of a block of 16 + ceil(Bits/8) bytes of the expander's output, and passes its errors on; if the bytes are uniform, the probability of every element differs from 1/p by less than 2^-128/p. SetInterface sets what its argument stands for - elements, machine integers of both signs, strings, big integers, bytes - and returns an error exactly for nil, strings that are no integer literals, and all other types.", "quantifier": "all packages with valid constants, all byte strings of the right length, all expanders, all arguments", "why_tests_cant": "acceptance exactly below the modulus and the bias of the reduction are statements about all 2^256 or more inputs", "anchors": ["jindo/internal/zp/element.go:136-183", "jindo/internal/zp/element.go:723-748", "jindo/internal/zp/element.go:1078-1129"]}
{"id": "C119", "title": "Verifiers of different goroutines do not disturb each other", "statement": "If several goroutines call Verify, each on a Verifier of its own made by NewVerifier from the same parameters and reference string, then in every order of their memory accesses each goroutine gets the answers it would get alone, no two of them access the same memory with one of them writing, and commitments, evaluations, proofs, parameters and commitment keys are unchanged. The answer of Verify depends on its arguments only: two such verifiers give the same answer whatever they and the others have verified before. The answer of one Verifier used by two goroutines can be wrong.", "quantifier": "all numbers of verifiers, all parameters, all sequences of calls by all goroutines, all schedules", "why_tests_cant": "the schedules of the goroutines cannot be enumerated and a wrong answer needs a switch at one of a few accesses", "anchors": ["jindo/verifier.go:12-285", "jindo/encoder.go:203-219", "jindo/rns.go:76-105"]}
{"id": "C120", "title": "One bigpoly evaluator serves many goroutines", "statement": "If several goroutines call AddTo, SubTo, MulTo, MulAddTo, MulSubTo, NegTo, ScalarMulTo, ScalarMulAddTo, ScalarMulSubTo, NTTTo, InvNTTTo and (of a cyclotomic evaluator) AutTo on one evaluator at the same time, each writing only polynomials of its own and reading only these and polynomials that nobody writes, then in every order of their steps, and whatever the sync.Pool of scratch polynomials hands out, makes or drops, each goroutine gets the results (and panics) it would get alone, no two goroutines access the same coefficient or flag with one of them writing, polynomials nobody writes are unchanged, every goroutine ends, and every scratch polynomial is back in the pool. With one scratch polynomial in place of the pool results can be wrong.", "quantifier": "all evaluators of rank 2^K with K >= 3, all numbers of goroutines, all sequences of calls, all schedules, all behaviours of the pool and of the garbage collector", "why_tests_cant": "the schedules cannot be enumerated, and the contents and identity of pooled polynomials depend on the runtime", "anchors": ["math/bigpoly/base_op.go:9-207", "math/bigpoly/cyclotomic.go:22-82", "math/bigpoly/ntt.go:98-244"]}
{"id": "C121", "title": "Soundness of Buckler's non-interactive proofs, for a random hash function", "statement": "Over a commitment scheme that accepts only the values at the evaluation point of the committed polynomials, whose commitments are serialised unambiguously with a fixed length, let a program know a circuit and its public witnesses, make at most Q calls of the hash function (each chosen from the results of those before) and then return a proof. The part of all hash functions with values of H bytes for which Verify accepts the proof although its commitments encode no witness for the constraints that Verify enforces (C89) is at most (Q+6)(2(Q+6) + k max(D, L))/256^H. D bounds the degrees of the checked identities, L is the number of linear constraints and k the number of hash values that become the same field element, which for a reduction modulo p is at most 256^H/p + 1: about (Q+6) max(D, L)/p if H is large. The circuit and the public witnesses have to be fixed in advance, as they are not hashed (C88).", "quantifier": "all circuits, all public witnesses, all programs with unbounded computation and at most Q calls of the hash function, all Q, all lengths of hash values", "why_tests_cant": "quantifies over all cheating programs and counts all hash functions", "anchors": ["buckler/verifier.go:29-217", "buckler/prover.go:108-121"]}
{"id": "C122", "title": "Soundness of Jindo's non-interactive openings, for a random extendable-output function", "statement": "Under the conditions of C99 each commitment has one polynomial of degree at most Rank with the following property. Let a program make at most Q calls of the extendable-output function that gives the challenges, each chosen from the results of those before, and then choose a point, a commitment, a value and a proof. The part of all extendable-output functions for which Verify accepts the proof although its partial evaluations are short and the value is not that of the polynomial at the point is at most (Q+1)(1/C + 2^-128), C the number of challenges of a column. For a commitment made by Commit the polynomial is the committed one, even if the program knows the randomness of Commit.", "quantifier": "all parameters and keys meeting the bounds, batch size one, all programs with unbounded computation and at most Q calls, all Q, all finite sets of inputs of the function", "why_tests_cant": "quantifies over all cheating programs and counts all extendable-output functions", "anchors": ["jindo/verifier.go:Verify", "jindo/prover.go:291-302", "jindo/verifier.go:85-96"]}
{"id": "C123", "title": "What the opening of a batch of Jindo commitments binds", "statement": "Under the conditions of C99, for any batch size: the commitments of a batch and the batching challenges determine one polynomial of degree at most Rank such that a first message with short partial evaluations, for claimed values whose combination by the batching challenges is not the value of this polynomial at the point, can be answered for at most about a 1/C share of the challenge bytes, C the number of challenges of a column. For commitments made by Commit the combination is that of the values of the committed polynomials, and the honest prover's first message is short and can be answered for all challenges. If moreover the claimed values are chosen before the batching challenges, every single value is bound: when one of them is wrong, all but about a 1/C share of the batching bytes leave the prover a 1/C share of the column bytes only. The bound also holds for a program that calls the extendable-output function at most Q times, with a factor of Q+1, whatever the batching challenges are.", "quantifier": "all parameters and keys meeting the bounds, all batch sizes, commitments, points, claimed values, first messages and challenge bytes; all programs with at most Q calls", "why_tests_cant": "quantifies over all cheating provers and counts challenge strings", "anchors": ["jindo/verifier.go:Verify", "jindo/verifier.go:verifyEval", "jindo/verifier.go:verifyOuterCommitment", "jindo/prover.go:Evaluate"]}
{"id": "C124", "title": "Values chosen before the batching challenges are bound for all commitments", "statement": "Under the conditions of C99 with larger bounds, every single Jindo commitment, however it was made, has one polynomial of degree at most Rank (less than Rank when the matrix has three rows or more) with the following property. For every batch of two or more commitments, every point and all claimed values fixed before the batching challenges: if one value is not that of the polynomial of its commitment, then for all but about a 1/C share of the batching bytes every first message with short partial evaluations can be answered for at most about a 1/C share of the column bytes, C the number of challenges. For commitments made by Commit the polynomials are the committed ones.", "quantifier": "all parameters and keys meeting the bounds, all batch sizes of two or more, all commitments, points, claimed values and first messages; counts over all challenge bytes", "why_tests_cant": "quantifies over all commitments that a cheating prover can send, also those Commit never returns, and counts challenge strings", "anchors": ["jindo/verifier.go:Verify", "jindo/verifier.go:verifyEval", "jindo/verifier.go:verifyOuterCommitment", "jindo/prover.go:Commit"]}
{"id": "C125", "title": "Soundness of Buckler over Jindo with two repairs", "statement": "Run Buckler's verifier over Jindo as an interactive protocol, with two changes: the claimed values are sent before Jindo's batching challenges, and the partial evaluations must be short. If the first commitments encode no witness that satisfies the enforced constraints, then whatever the prover does, it wins for at most a share of (N+2+L+D)/p + 2(1/C + 2^-128) of all challenges, N the rank, L the number of linear constraints, D the degree of the checked identities and C the number of Jindo challenges.", "quantifier": "all circuits that compile, public inputs, Jindo parameters and keys meeting the bounds with three matrix rows or more, all cheating provers with unbounded computation", "why_tests_cant": "quantifies over all cheating provers of the composed protocol and counts all challenges", "anchors": ["buckler/verifier.go:Verify", "jindo/verifier.go:Verify"]}
{"id": "C126", "title": "NewParameters returns the smallest candidate", "statement": "NewParameters tries the numbers of columns 1, 2, 4, ... up to the least number that holds targetN coefficients in one row. With every floating-point operation rounded and a prime generator that finds its primes, it returns the parameters of the candidate whose Size() is smallest, the one with the fewest columns if several are equally small, and the zero value only if every number of columns needs a modulus of more than 240 bits. No field is left over from another candidate.", "quantifier": "all targetN up to 2^47, batch sizes up to 2^53, field orders for which the search returns, floating-point units within the error bounds, prime generators that find their primes", "why_tests_cant": "quantifies over all sizes, fields and roundings; the candidates are not observable", "anchors": ["jindo/params.go:NewParameters", "jindo/params.go:Size"]}
{"id": "C127", "title": "Completeness of Buckler over Jindo with the two repairs", "statement": "The two repairs of C125 cost an honest prover nothing. For every circuit and satisfying assignment in the cases of C48, all hash functions and all commitment randomness of bounded size for which the parameters leave room: Prove returns a proof, and for its commitments, mask sums and values and every choice of Jindo's batching bytes there are partial evaluations that are short enough for the additional check, such that for every choice of the column bytes there is an opening proof with these partial evaluations with which Buckler's Verify returns true.", "quantifier": "all circuits in the cases of C48, satisfying assignments, hash functions, map iteration orders, bounded randomness, batching bytes and column bytes", "why_tests_cant": "quantifies over all circuits, assignments, hash functions and all challenge bytes; the repaired protocol cannot be run", "anchors": ["buckler/prover.go:Prove", "buckler/verifier.go:Verify", "jindo/prover.go:Evaluate", "jindo/verifier.go:Verify"]}
{"id": "C128", "title": "CommitmentSize never exceeds the bits of a commitment and is short of them by a bounded number", "statement": "A batch of outer commitments has batch * outRank * d coefficients modulo Q' = product of QOut, and Commit removes the lowest logOutCutOff bits of each. With every floating-point operation rounded, CommitmentSize() of the parameters that NewParameters returns is at most log2(Q' / 2^logOutCutOff) + 2^-28 bits per coefficient, and is short of log2(Q' / 2^logOutCutOff) by at most one bit for the rounding of the cut, one per prime of Q', and 2^-28. It is not the size: for 16 coefficients over the field of order 65537 it is at least 150 bits less than the bits of the 768 coefficients.", "quantifier": "all targetN up to 2^47, batch sizes up to 2^53, field orders for which the search returns, floating-point units within the error bounds, prime generators whose primes have the bits asked for or one more", "why_tests_cant": "quantifies over all sizes, fields, roundings and primes; the code never writes a commitment in its compact form", "anchors": ["jindo/params.go:NewParameters", "jindo/params.go:CommitmentSize"]}
