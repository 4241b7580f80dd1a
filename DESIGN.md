# Formal model of ringo-snark: design

Subject: `/repo` (sp301415/ringo-snark at the pinned commit), read as text only.
Deliverable: the Lean 4 project in `lean/`, theorems indexed by `MANIFEST.json`,
properties in `properties.jsonl`.

## Trusted base

* Lean 4.33 kernel. Every theorem may depend on `propext`, `Classical.choice`,
  `Quot.sound` and on nothing else (no `sorry`, no extra axiom, no
  `native_decide`/`bv_decide`).
* The reading of the Go code. Each model definition names the file and lines it
  models. Nothing here was executed against the Go code.
* The Go semantics written in `Verif/Go.lean`: a run either returns a value,
  panics, or performs an out-of-bounds `unsafe` access (`Fault.ub`).
* `math/big`, `crypto/*`, `reflect`, `sync.Pool`, lattigo's `ring` and
  gnark-crypto's `fiat-shamir` are not modelled line by line. They appear as
  their mathematical contracts (integers, hash oracle = arbitrary function,
  polynomial ring modulo Q) or as explicit parameters of the model.

### Modelling conventions

* Go `int` is `Nat`/`Int` (no overflow: all sizes here are below 2^62), except
  where wrap-around is the point (`modInverse`, `SampleN`, `divMod64`, witness
  ids, `ChallengeBound`, limbs of field elements): those use explicit
  arithmetic modulo 2^64.
* A slice of field elements is a `List F`. Checked indexing panics, the 8-wide
  `unsafe` windows fault with `ub` if they leave the slice. The in-place vector
  operations are additionally modelled on a heap of cells with pointer slices,
  to talk about aliasing (`Model/Vec.lean`).
* A function that mutates its argument returns the new value. Loops are folds
  over index ranges (`Go.forRange`) or well-founded recursions mirroring the
  loop.
* Field elements in bigpoly/buckler/jindo models are elements of a field `F`
  (`ZMod p` where the code uses the modulus). The limb-level implementation of
  the field is modelled separately (`Model/Field*.lean`) and shown to implement
  `ZMod q`.
* Randomness is an argument (list of drawn values). Hashing is an arbitrary
  function argument.
* Floating point is modelled where the operations are exact (`SampleFloat`) or
  reduce to integer ceilings of integer quotients (`NewParameters` shape). The
  rest of `NewParameters` is modelled over the real numbers
  (`Model/JFloat.lean`): square roots, logarithms and powers are exact, nothing
  is rounded. `Model/JRound.lean` is the same code with every operation rounded
  (overflow and underflow excepted): C106 is C91 for it, `C92_hang_round` the
  hang of C92; the other theorems of C92 hold up to rounding only. The same goes for the Gaussian samplers (`Model/Gauss.lean`, C93-C95), whose draws
  are uniform real numbers (a word for the tables of TwinCDT) on a product
  probability space.

### Not modelled

Overflow and underflow of floating-point numbers, the hardness
estimates behind parameter selection, AVX-512 code of the field packages, rounding of the Gaussian tables, lattigo ring
internals (NTT/Montgomery over word-size primes; `ModUpQtoP` is taken to return
the balanced lift), Go's memory model beyond the explicit two-thread model of
C51 and the sequentially consistent threads of C116, C119 and C120 (sufficient for programs without
data races, which these claims show; C120 writes `sync.Pool` out as a set of polynomials whose `Get`
returns any of them or a new one), the buffers inside lattigo's basis extender (C119 assumes one
that is written before it is read), `reflect` beyond the traversal the walker performs, code generation in
`jindo-modulus` after the modulus is chosen, key generation, encryption and
conversion to big integers by lattigo in `examples/bfv` (its results are
parameters), timing.

Functions with no definition of their own: the getters `Rank()` (`bigpoly/base_op.go:37`,
`ntt.go:139,469`, `poly.go:30`) and `StdDev()` (`gaussian_twin_cdt.go:72`), which return a field;
`HasArithmeticCheck`/`HasLinearCheck`/`HasSumCheck` (`buckler/context.go:273-285`), written out where
they are called; `NewRoundedGaussianSamplerWithSeed` (`gaussian_rounded.go:70`), the seeded form of a
constructor whose sampler is modelled; `isUnaryOperable`/`isBinaryOperable`
(`bigpoly/poly.go:86-101`), which nothing calls (the second compares `pOut` with `p1` where the
function in use compares `p0` with `p1`, so it must not be put in its place).

## Per-property plan

| id | model | proof |
|----|-------|-------|
| C01 | `Exp` loop as recursion on the uint64 exponent | invariant r·t^e |
| C02 | `SampleN` over an arbitrary stream of words with loop fuel | range: case split; unbiased: counting fibres of `% n` below the bound |
| C03 | sampler state (keystream, 8192-byte buffer, pointer) | induction over blocks: buffer = XOR of blocks so far; bijection by explicit inverse |
| C04 | `Read` as XOR into the buffer | refuted by two buffers; `_partial`: zero buffer |
| C05 | exact rational value of the IEEE bit pattern; each step representable | arithmetic |
| C06 | table as arbitrary list, float comparison as arbitrary Boolean | binary-search range |
| C07 | heap model with pointer slices, 8-wide blocks + tail | loop invariant over the prefix |
| C08 | loop with `bit`,`j` state | j = rev(i) invariant, swap-once permutation argument |
| C09 | root search over `ZMod p` | order of x^((p-1)/N) divides N, and not N/2 |
| C10-C12 | every stage as list of butterflies, as in the code | evaluation invariant per stage with heap-indexed roots; inverse by peeling stages |
| C13 | unrolled loops with unsafe windows | the index lists are equal |
| C14 | composition of the above | evaluation at all roots determines the residue class |
| C15 | 8-wide copy loops | `_partial` for lengths divisible by 8 (or capacity); refuted for 1,2,4 |
| C16 | flags in the `Poly` model; sequences of operations | invariant over op sequences without the accumulating ops (`_partial`); refutation for `MulAddTo` |
| C17-C18 | both index loops | index permutation algebra, evaluation characterisation |
| C19 | descending loop | invariant p = quo·(X^N-1)+rem |
| C20-C22 | loops/folds | induction |
| C23-C24 | `decomposeBase`, `decomposeBig` | remaining-sum invariant; refutation at powers of two |
| C25 | handles via integer value mod p | arithmetic modulo 2^64 |
| C26-C27 | tree-shaped circuit values, three walkers | induction on trees; refutation by a nested bad witness |
| C28-C29 | encoder over the NTT model | from C10/C12 |
| C30-C33 | checkers as in `linear.go` | adjointness by sums; modInverse by integer lift of wrapped arithmetic |
| C34 | context built by a list of API calls | invariant on max ranks |
| C35-C40 | prover/verifier checks as in the code, over polynomials | polynomial identities; root counting |
| C41-C45 | constraints produced by the context calls, prover digit filling | from C23/C24; refutations by explicit witnesses |
| C46-C47 | transcript as list of bound messages | equality of message lists; refutation |
| C48-C50 | whole Prove/Verify in the Go monad over an abstract PCS | composition |
| C51 | two threads writing/reading the shared projection matrix | interleaving semantics |
| C52 | slot ownership (caller-owned / internal) | invariant on written slots |
| C53-C62 | list/integer-level models of jindo helpers | arithmetic, CRT |
| C63-C64 | jindo commit/evaluate/verify over an abstract commutative ring Z[X]/(X^d+1) and its reductions | ring identities |
| C65-C68 | integer-level shape model | arithmetic |
| C69-C73 | limb-level CIOS, carry chains, conversions; memory with pointers that may coincide | induction over limbs |
| C74 | the binary GCD of `Inverse` with its signed 64-bit update factors | invariant of the 31 inner steps, decreasing measure of the outer loop |
| C75 | bits consumed by the ziggurat sampler | arithmetic on words |
| C76-C77 | what acceptance by `Verify` means, for any proof | polynomial identities, root counting; integer equations |
| C78 | forged evaluations when all challenges are zero | explicit forger |
| C79 | constants of the seven field packages | primality by the Lucas test, checked in the kernel |
| C80-C81 | `SetRandom` (also of vectors, `Model/FieldRandom.lean`), `Halve`, `Div`, `Exp`, `BatchInvert` | counting byte strings; induction over slices |
| C84 | how many challenges accept a wrong value | zero divisors `(Q/q)·D`; pigeonhole over the challenge bytes |
| C85 | a proof fixes the claimed values | representatives of accepted partials are unique; the claimed values enter one linear equation |
| C86 | soundness of Buckler over Jindo | forged proofs: solve the verifier's equations together with the one linear equation of C85 |
| C87 | zero knowledge of the protocol over a hiding commitment scheme | exchange of the witness compensated by a bijection of the coins: one coefficient per witness, two per mask |
| C88 | Fiat-Shamir: what the challenges are hashes of | unambiguous concatenation; induction along the chain of challenges |
| C89 | Soundness of `Verify` over a scheme that fixes the values | the points passing all checks, if more than D, give C36, C38 and C40 at once; bad sets by choice |
| C90 | Soundness error of the interactive protocol | the five exceptional sets of C89, each counted over the other four challenges |
| C91 | all of `NewParameters`, over the reals | invariant of the loop over the number of columns; inequalities between the bounds |
| C92 | termination of `NewParameters` | monotone bound for the hang; least fixed point of a monotone rank for the end |
| C93 | `computeCDT` and `TwinCDT.Sample` over the reals | sorted tables; one step to the right outweighs the shift of the center; counting words |
| C94 | `COSACSampler` on a probability space of draws | geometric series for the rejection loop; Gaussian integral over a rounding cell |
| C95 | `init`, `normFloat` and `RoundedGaussianSampler.Sample` | bounds on the table by repeated squaring; each layer by Fubini, the tail by substitution; telescoping over the layers |
| C96 | array sizes in `NewCommitKey`, `NewCommitment`, `NewOpening`, `Commit` | invariant on shapes through the loops; a parameter set computed by hand for the refutation |
| C97 | `Verify` of jindo on proofs of any shape | each step returns; the first loop that leaves its slice panics |
| C98 | `SampleN` and `NewCommitKey` on a stream of words | programs that draw (`Draws`): independence of the rest of the stream, closed under sequence and loops |
| C99 | soundness of one opening when partial evaluations are short | two answers in one column give a relaxed opening; binding ties the openings of all transcripts together; counting challenge bytes column by column |
| C100 | `Model/Asm.lean` (machine), `Model/AsmAmd64.lean` (the programs of the .s files) | weakest-precondition style: one relational lemma per instruction, chains of adc/sbb/mulx-adcx-adox as carries of one number, programs of each width as instances of one scheme |
| C101 | `Model/FieldSmall.lean` | composition of C69, C70; `Butterfly` with equal arguments refuted |
| C102 | `Model/Arm64.lean` (machine), `Model/AsmArm64.lean` (the programs of the .s files) | the straight programs are evaluated to functions of lists of words by the kernel's conversion (`kernel_rfl`); rows of products and carries as numbers |
| C103 | `Model/FieldSqrt.lean` (Tonelli-Shanks on words, `uint64` counter) | the order of `b` falls in every pass (`sqrtLoop_spec`); the constants of the packages by `decide +kernel` |
| C104 | `Model/FieldSqrt.lean` | words as numbers; `-c` and arithmetic shift on `BitVec 64` for `Select` |
| C105 | `Model/FieldLegendre.lean` (binary GCD on approximations, with sign) | the invariant of C81's GCD with explicit factors (`GcdWit`); the determinant shows that the true values are never both negative, so that reciprocity for Jacobi symbols applies; ends by the same measure as `Inverse` |
| C106 | `Model/JRound.lean`: `NewParameters` with rounded operations (`Flt`) | every quantity is within a power of 1 + 2^-50 of the real one (`Near`); ceilings of quotients and logarithms by cases (`Proof/JRoundLog.lean`) |
| C107 | `Model/JEnvOf.lean`: provers and verifiers built from the result of `NewParameters` and `NewCommitKey` | the accepted iteration of the loop bounds every prime from below by the norms, hence by the challenge bound (`Proof/JEnvOf.lean`) |
| C108 | `Model/JProto.lean` and `Model/JRound.lean` together (`Spec/JTypical.lean`: the bounds for responses) | each half of the squared norm bound leaves a factor of two for the other half, rounding and larger primes; partial evaluations are at most a quarter of the modulus (`Props/JTypical.lean`) |
| C109 | `Model/Piop.lean` over `Model/JProto.lean` with the parameters of `Model/JRound.lean` (`jindoPCS`) | Buckler's run needs of the commitment scheme only that it commits and evaluates, and acceptance of this proof; both halves are then determined by the same commitments (`Props/EndToEnd.lean`, case in `Props/EndToEndEx.lean`) |
| C110 | encoding of `Vector`: bytes, readers that end early, the tasks of `AsyncReadFrom` as workers interleaved by any schedule (`Model/FieldVec.lean`) | the tasks partition the elements; invariant: an element is raw or done according to its worker's position |
| C111 | arithmetic of `Vector` on a memory with overlapping slices; `addVec`, `subVec` on an amd64 machine with backward jumps (`Model/FieldVecOps.lean`, `Model/AsmVec.lean`) | loop invariant; the body of the assembly loop equals one step of the portable loop by computation in the kernel, and induction on the counter |
| C112 | `main` and `Define` of `examples/mult` (`Model/Examples.lean`) | the compiled context is computed once for all ranks; a run is accepted as soon as the sum of the constraints vanishes (`plain_run`), and the constraints of a norm check sum to the excess over the bound (`inf_sum`) |
| C113 | `main` (after lattigo's encryption) and `Define` of `examples/bfv` (`Model/Examples.lean`) | arithmetic in Z[X]/(X^N+1) with a bound on coefficients (`RedTo`): multiplication by the key, scaling, exact division by Q; then the evaluation points of the NTT carry the identity over to the field |
| C114 | the decoded values of a proof of `Evaluate` and the coins of `Commit` | the proof decodes to `jPart` and `jResp` (`evaluate_spec` and the bounds of `JBound`); two vectors equal at the point differ by a shift of the last row (division by X - x) and of the masks, so the fibres have equal size. The Gaussian parts of the encodings are not covered |
| C115 | backing arrays with Go's `append`, pointers for coefficients and bounds; `Define` as a program (`Model/CtxHeap.lean`) | versions of a constraint: an unextended version ends at the frontier of its array; refutations by running the programs |
| C116 | memory of objects, programs of single reads and writes, constructors and `SafeCopy`, `Commit`, `Evaluate` and all samplers and buffers they use (`Model/JCopy.lean`) | separation: a goroutine stays in what its prover owns and what nobody writes; freshness: buffers are written before they are read |
| C117 | `Text`, `SetString`, JSON and `Vector.String`, with the scanner of `math/big` written out (`Model/FieldText.lean`); grammar of integer literals in `Spec/FieldText.lean` | the scanner accepts exactly the grammar: induction over the string with the previous character as state |
| C118 | byte orders, `Hash`, `SetInterface` (`Model/FieldText.lean`) | words of bytes; counting residues in an interval |
| C119 | memory of verifiers, `NewVerifier`, `Verify`, `DecodeTo` (`Model/JVerMem.lean`) | as C116; the program of one verifier is that of another at other addresses |
| C120 | operations of an evaluator as programs of single accesses with `Get` and `Put` of the pool (`Model/Pool.lean`) | each operation in memory does what it does on values, for all contents of the buffer it gets; an invariant on who holds which buffer; induction over events and programs |
| C121 | a program that calls a hash function is a tree (`Spec/Asker.lean`); the oracle is a function from strings of at most n bytes to H bytes, and these are counted | lazy sampling: the hash functions that hit a bad answer are counted along the tree (`Proof/Asker.lean`); the table of answers determines what was sent before each challenge (`Proof/RomChain.lean`); exceptional sets of C89 in the order in which the code draws the challenges (`Proof/LinRev.lean`, `Proof/RomCore.lean`) |
| C122 | programs as in C121 (`Spec/JRom.lean`); the extendable-output function of Jindo is drawn on a finite set of inputs, sixteen bytes per column | the input determines point, commitment and first message, and these determine the value that can be claimed; C99 bounds the bad bytes of an input; counting as in C121 (`Proof/Asker.lean`) |
| C123 | the batch size of C99 and C122 is arbitrary; combination of values and program claims in `Spec/JBatch.lean`, the commitments of a batch have the number and size that `Commit` gives | C99 for the combined commitment (`bind_comb`), which C99 is now a special case of; a combination of differences of values is zero for one challenge only; C85 says which values have the same proofs |
| C124 | C123 for commitments of any origin and any size; the polynomial is extracted from accepted answers to different batching challenges | two accepted forks give openings of the combinations; differences of challenges are cancelled by multiplying across (`pair_cross`, `pair_poly`), so that one polynomial serves all batches, points and proofs; the bound on the degree is `Rank` when there are two rows, because the mask row of a commitment need not be zero in its last place |
| C125 | `Spec/JBuckler.lean`: the prover's messages in the order of the two protocols, except that the values come before Jindo's batching challenges | C90 for an ideal scheme with the polynomials of C124 in place of Jindo; a run is won only if the ideal run is won or a wrong value is opened |
| C126 | `Spec/JSearch.lean`: a candidate is what one iteration makes of empty parameters; `Size()` in `Model/JSize.lean` | the loop as a search for the first minimum (`search_min`); an iteration skips or overwrites every field (`fstep_keep`); without primes it overwrites some fields only (`C126_refuted_noPrimes`) |
| C127 | `JEnv.withBytes` of `Spec/JBuckler.lean`: Jindo with given bytes for its challenges | C48 for Jindo's own bytes; the commitments and values do not depend on the bytes, and Buckler's other checks do not look at the opening (`verify_swap`); openings for all bytes from C84_honest and C99 |
| C128 | `Spec/JComSize.lean`: the coefficients of a batch of commitments and the bits of one, `log2 (Q' / 2^outCut)` | the estimate uses `qq / outCutOffInf` before rounding: `qq ≤ Q'`, and `outCut` rounds `log2 outCutOffInf` down (`fcomSize`); the bound on the primes from above is the hypothesis `GenLe` |
| C82-C83 | the random projection | flipping bits of the stream: equal fibres; flipping one bit of a row |

Where a property is false of the code, the theorem named `..._refuted` proves
the negation with a concrete witness and `..._partial` proves the largest true
fragment; `MANIFEST.json` marks such properties `partial`.

## Assumptions about what is not modelled

* `math/big`: exact integers; `Mod`/`ModInverse`/`Exp` as documented;
  `ModInverse` leaves its receiver unchanged if there is no inverse.
* lattigo `ring`: an abstract structure with the laws listed in
  `Verif/Spec/Lattigo.lean` (a ring Z_Q[X]/(X^d+1) with a CRT chain of odd
  coprime moduli, NTT and Montgomery maps as ring isomorphisms, `ModUpQtoP` as
  the centred lift). `lawful_exists` shows the laws are satisfiable.
* Hash functions and the extendable-output sampler: arbitrary functions of
  their input; theorems about transcripts quantify over them.
* The field packages: the portable Go code (`element.go`, `arith.go`,
  `element_purego.go`) and the amd64 and arm64 assembly of the operations on
  elements (`Model/Asm.lean`, `Model/AsmAmd64.lean`, `Model/Arm64.lean`,
  `Model/AsmArm64.lean`: the semantics of the instructions is part of the trusted
  base). The `Vector` types
  (no other package of the repository calls them) are modelled from
  `vector.go` and the loops `addVec`, `subVec` of the amd64 assembly
  (`Model/FieldVec.lean`, `Model/FieldVecOps.lean`, `Model/AsmVec.lean`). The
  AVX-512 code is not modelled. Text and JSON are (`Model/FieldText.lean`), with
  `strconv.FormatUint`, `big.Int.Text` and `big.Int.SetString` with base 0 written
  out from the standard library.

* The conditions on parameters and keys in the theorems about the protocol
  (`JEnv.Good`, C63-C67 and others) are not assumed for parameters made by
  `NewParameters` and keys made by `NewCommitKey`: C107 derives them from what is
  listed in `JEnv.From` (`Spec/JEnvOf.lean`). For `batch = 1` the primes of the
  outer ring may be smaller than the challenge bound; `encodeChallengeTo` is
  called with the outer ring only if `batch > 1`, where they are not.
* lattigo's `NextUpstreamPrimes` returns, for the sizes `NewParameters` asks for,
  that many primes above `2^bits` (`GenOk`); C108 and C109 also assume that they are at
  most `17/16 * 2^bits` (`NearPrimes`), C128 that they are at most `2^(bits+1)` (`GenLe`).

## Findings (disagreements between the property and the code)

Each is a theorem of the model (named at the end of the line) unless marked
otherwise.

1. `evalCircuit` multiplies every arithmetic constraint by the same batching
   constant, so only the sum of all constraints is enforced (`C36_refuted`).
2. `sumCheckSums` is never used by the verifier: public sums of sum checks are
   not enforced (`C39_refuted`, `C40_refuted`).
3. `decomposeBase` misses the bound at powers of two (`C23_refuted`,
   `C41_refuted`, `C42_refuted`); bounds 0 and 1 panic; a negative infinity
   bound adds no constraint.
4. The circuit walkers drop errors of nested values and shift the identifiers
   of later witnesses (`C27_refuted`); unexported fields are skipped.
5. A second `AddInfNorm` on the same witness overwrites the first
   (`C44_refuted`).
6. The partial square norm is not reset between two-norm constraints
   (`C43_refuted`).
7. The ternary constraint of `AddApproxInfNorm` is commented out, which makes
   the approximate norm proof vacuous (`C45_refuted`). The prover panics if
   128 times the number of digits exceeds the rank.
8. Public witnesses and the circuit are not bound in the Fiat-Shamir transcript
   (`C47_refuted`, `C47_false_statement`).
9. The compiled context and the projection checker are shared and mutated by
   prover and verifier: a data race (`C51_refuted`).
10. `Verify` panics on malformed proofs, in buckler (`C50_refuted`) and jindo
    (it never checks the lengths of the fields of a proof, `C97_refuted`).
11. `Copy`/`CopyFrom` overrun slices whose length is not a multiple of 8
    (`C15_refuted`).
12. `MulAddTo` and its kin ignore the NTT flag of the accumulator
    (`C16_refuted`).
13. `UniformSampler.Read` XORs the keystream into its buffer and returns
    different bytes for different previous contents (`C04_refuted`).
14. `ChallengeBound` is 1 for extension degrees 61 to 120 (package zp880 uses
    degree 64): every challenge is zero (`C60_refuted`), and any evaluation can
    be proved (`C78_refuted`, `C78_refuted_batch`). Degree 1 gives 0 and a
    division panic.
15. RNS reconstruction rounds the boundary value `Q/2` the other way on the
    slow path (`C58_refuted`).
16. `setCoeffSigned` stores an unreduced residue for multiples of the modulus
    and for coefficients at least the modulus (`C59_refuted`).
17. `newEncodeParameters` does not end for p = 2. The search for `mu` in
    `NewParameters` does not end if the modulus would need more than 240 bits:
    among others for all fields of order b + 1 with b no square and at least
    2^57, or 2^29 for batches, as the 64-bit field of order 2^64 - 2^32 + 1 and
    (for batches) the 31-bit field of order 15 * 2^27 + 1 (`C92_hang`). The loop can also
    skip the rank: the modulus grows by a bit, the rank falls, and no `mu` is
    its own rank any more. With the field of order 3, `NewParameters(2981888, 4)`
    does not return, although the modulus has 31 bits (`C92_hang_skip`).
18. `Compile` without constraints, and constraints whose degree does not exceed
    the rank, make prover and verifier panic (`C48_refuted`, `C49_refuted`).
19. `jindo-modulus` with `-b`/`-k` only checks primality (`C68_refuted`).
20. `Commit` panics on an empty vector (`C66_refuted`).
21. `Prove` on a witness whose slices are longer than at compile time
    overwrites the caller's vectors (`C52_refuted`).
22. The jindo verifier never bounds `Partial`/`PartialMask`, and `InCommit` is
    not hashed into the transcript. One consequence: a first message for a wrong
    value can be completed for one in `q` of the first challenges, `q` an NTT
    prime below 2^62, although challenges are sized for 2^96 (`C84_refuted`). With a bound on
    the partial evaluations, and moduli large enough that nothing wraps around,
    the fraction is that of one challenge (`C99_error`).
23. The values claimed for a batch are not hashed before the challenges that
    combine them, and only the combination is checked: an accepted proof is
    accepted for other values too (`C85_refuted`).
24. As a consequence Buckler over Jindo accepts false statements: the equations
    of the verifier are evaluated on `Proof.Evals`, which nothing but that one
    combination ties to the commitments. Given honest commitments to arbitrary
    polynomials, evaluations can be found for any public witness
    (`C86_refuted`; an accepted proof of a false statement in `C86_case`).
25. `TwinCDTGaussianSampler.Sample` sums the Gaussian up to the table index
    instead of the value, and so always takes the table of the center rounded
    down to a multiple of 1/128 (`C93_refuted`).
26. `COSACSampler.sampleRound` compares the rounded value with 0.5 where the
    algorithm compares the normal number, so that the integer nearest to the
    center is returned about three times as often as it should be
    (`C94_refuted`; 1.8 times is proved).
27. The ziggurat's `init` leaves `fn[0]` at zero, so that the innermost layer
    never rejects: `normFloat` is uniform on an interval of half width between
    0.16 and 0.29 around zero (`C95_refuted`).
28. `NewCommitment` and the `InCommit` field of `NewProof` (jindo/entities.go)
    make their polynomials in `ringQ` instead of `ringQOut`. Where the outer
    modulus has more primes than the inner one every `Commit` panics; this
    happens for the field of order 614657 = 28^4 + 1 with `NewParameters(1, 2)`
    (`C96_refuted`).
29. `Butterfly(&x, &x)` of a field package leaves `2x` with assembly and `-x`
    without (`C101_butterfly_differ`).
30. `Vector.Add` and `Vector.Sub` of the field packages with a `vector_amd64.go`
    panic on empty vectors (`&a[0]`) where the portable code does nothing;
    `InnerProduct` with an empty receiver is zero there whatever the length of
    the argument, where the portable code panics (`C111_amd64_empty`; no other
    package of the repository calls them).
31. `Vector.WriteTo` writes the length modulo 2^32: of 2^32 elements or more,
    reading back yields the first `len mod 2^32` without an error
    (`C110_roundTrip`).
32. The error of `Vector.AsyncReadFrom` counts tasks with an invalid element,
    which depends on the number of processors, and the elements after the
    invalid one in a task stay in the raw form of the file (`C110_async_errors`).
33. `v.ScalarMul(v, &v[0])` squares the scalar and multiplies the rest by the
    square (`C111_scalar_refuted`); `Add` into a slice that begins inside an
    operand spoils the operand (`C111_overlap_refuted`).
34. In `examples/mult`, for every `X` and `Y` - `X` of any size - the library's own
    prover gets a proof accepted for some `Z`, which is not the product if `X`
    exceeds its declared bound: the excess over the bound and the error of the
    product cancel in the sum of the constraints (`C112_refuted`).
35. `examples/bfv/main.go:49-68`: the circuit that is to prove a ciphertext well-formed does not constrain the secret
    key. For every ciphertext whose mask is invertible and every message within the bound there is a key with which all
    constraints hold with error zero, so the same ciphertext has accepted proofs for all messages (`C113_refuted`). The
    comment `|m| < t` is also off: for the example's t = 2^16 + 1 the bound t - 1 is a power of two, and the norm check
    covers |m| <= t - 2 only.
36. `jindo/prover.go:205`: `Evaluate` takes an `Opening` as often as one likes, but an opening hides the polynomial in
    one proof only: the masks are drawn by `Commit`, so two proofs with different challenges reveal the matrix
    (`C114_reuse`, one column). Nothing in the API or its comments says so. Within Buckler every opening is used once.
37. `ArithmeticConstraint` is passed by value (context.go:79) but holds slices: `a := c; a.AddTerm(x);
    ctx.AddArithmeticConstraint(a); b := c; b.AddTerm(y); ctx.AddArithmeticConstraint(b)` makes the
    context check `y` twice and `x` never when `c` has three terms (`C115_refuted_copy`). Coefficients
    and `*big.Int` bounds are kept as pointers: writing to them after the call changes the constraint,
    and the bound is read again by every `Prove` and `Verify` (`C115_refuted_coeff`,
    `C115_refuted_bound`). Neither is documented.
38. One `Prover` (or one `Encoder`) used by two goroutines gives wrong proofs: `Evaluate` at 2 returns the digits of
    another point if the other goroutine runs while `encode` is half way (`C116_refuted_shared`). Only `SafeCopy`
    hints at this; `jindo.Verifier` has the same buffers (its encoder) and has no `SafeCopy`: used by two
    goroutines, it can accept a proof that it rejects alone (`C119_refuted_shared`).
39. `Text(b)` of a field element cannot be read by `SetString` unless `b = 10` or a prefix is added: the element `b` is
    read as 10 (`C117_refuted_base`). `UnmarshalJSON` accepts input that is no JSON (`"5`, `5"`, `0x_1F`) and refuses
    `null`, which `MarshalJSON` writes for nil pointers and which `encoding/json` asks to be accepted
    (`C117_unmarshalJSON`, `C117_refuted_null`). The comment of `SetString` (element.go:994) says that misplaced
    underscores panic; they are an error.
40. `NewParameters` (params.go:258-297) stores the sizes, ranks and `minSize` of a candidate before it asks for primes,
    and goes on to the next number of columns if there are none. What it returns can then have the matrix of one
    candidate and the rings and norm bounds of another, or no rings (`C126_refuted_noPrimes`). With lattigo's generator
    and degree 256 there are always enough primes, so this does not happen today.
41. `CommitmentSize` is documented as "the size of outer commitment" (params.go:119, 443), but params.go:248 computes it
    from `qq / outCutOffInf`, while the code cuts off `floor(log2(outCutOffInf))` bits and uses primes above `2^qqBits`.
    It is never more than the bits of the truncated coefficients, and for 16 coefficients at least 150 bits less
    (`C128_comSize`, `C128_refuted`). The search of C126 minimises this estimate.
