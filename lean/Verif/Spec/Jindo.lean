import Verif.Proof.JProto

/-!
# What the theorems about Jindo's protocol speak of

Integers behind the polynomials of a commitment and its opening, the challenges as integers, and
norms.  For a list of integers `z`, `toZ N z` and `toR qs N z` are the elements of `ℤ[X]/(X^N+1)` and
`(ℤ/Q)[X]/(X^N+1)` with these coefficients.
-/

namespace Ringo

open Finset

/-- The sum of the squares of all coefficients. -/
def jSqSum (zs : List (List Int)) : Nat := (zs.map fun z => (z.map fun c => c.natAbs ^ 2).sum).sum

/-- Entry `(i, j)` of a matrix of polynomials. -/
def at2 {T : Type} [Zero T] (l : List (List T)) (i j : Nat) : T := (l.getD i []).getD j 0

namespace JEnv

variable {p : Nat} {T T' : Type} [AddCommGroup T] [AddCommGroup T']

/-- What `NewParameters` and `NewCommitKey` provide: parameters that fit the field and each other,
keys of the right shapes, an oracle that fills its buffers, `ModUpQtoP` as assumed, and a monotone
conversion to `float64` with norm bounds below half the moduli. -/
structure Good (E : JEnv p T T') : Prop where
  enc : E.par.enc.Good p
  mat : E.par.mat.Good
  slots : E.par.mat.slots = E.par.enc.slots
  deg : E.ringQ.N = E.par.enc.N
  deg' : E.ringQ'.N = E.par.enc.N
  chal : 1 ≤ challengeBound E.par.enc.ecd
  chalQ : ∀ q ∈ E.ringQ.qs, challengeBound E.par.enc.ecd + 1 < q
  chalQ' : 1 < E.par.batch → ∀ q ∈ E.ringQ'.qs, challengeBound E.par.enc.ecd + 1 < q
  xof : ∀ ms i, (E.xof ms i).length = 16
  batch : 1 ≤ E.par.batch
  inRank : 1 ≤ E.par.inRank
  outRank : 1 ≤ E.par.outRank
  dcmp : E.par.dcmpLen = (E.par.mat.cols + 1) * E.par.inRank
  inn : E.key.inn.length = E.par.inRank
  inn2 : ∀ r ∈ E.key.inn, r.length = E.par.mat.rows
  mlwe : E.key.mlwe.length = E.par.inRank
  mlwe2 : ∀ r ∈ E.key.mlwe, r.length = E.par.mlweRank
  out : E.key.out.length = E.par.outRank
  out2 : ∀ r ∈ E.key.out, r.length = E.par.dcmpLen
  modUp : ModUpLawful E.ringQ'.qs E.ringQ.qs E.par.enc.N E.modUp
  mono : Monotone E.toFloat
  resNm : E.par.resNm ≤ E.toFloat ((E.ringQ.qs.prod - 1) / 2)
  dcmpNm : E.par.dcmpNm ≤ E.toFloat ((E.ringQ'.qs.prod - 1) / 2)

variable (E : JEnv p T T')

/-- Batching challenge `i`; with a batch of one, the number one. -/
def betInt (x : ZMod p) (com : List (List T')) (i : Nat) : List Int :=
  if E.par.batch > 1 then chalInt E.par.enc (E.xof (E.firstMsgs x com) i) else [1]

/-- The challenge of column `j`. -/
def gamInt (x : ZMod p) (com : List (List T')) (parts : List T) (partMask : T) (j : Nat) : List Int :=
  chalInt E.par.enc (E.xof (E.startMsgs x com ++ parts.map .poly ++ [.poly partMask]) j)

/-- Entry `k` of the vector of powers of `x` that the rows are combined with. -/
def leftAt (x : ZMod p) (k : Nat) : ZMod p :=
  if k = E.par.mat.rows - 1 then x else x ^ (E.par.mat.cols * E.par.mat.slots * k)

/-- The digits of its encoding. -/
def leftInt (x : ZMod p) (k : Nat) : List Int := encInt E.par.enc [E.leftAt x k]

end JEnv

/-- Integers behind a commitment and its opening, by column and index: the encodings, the MLWE
secrets, the truncated inner commitments and the remainders of both truncations. -/
structure JInts where
  e : Nat → Nat → List Int
  m : Nat → Nat → List Int
  t : Nat → Nat → List Int
  rho : Nat → Nat → List Int
  sig : Nat → List Int

/-- `I` are integers behind the commitment `com` to `v` with the opening `o`: the encodings decode
to a matrix that evaluates like `v`; the inner commitments are the key times the column, the outer
commitment is the key times the inner commitments, up to the remainders of the truncations. -/
structure JEnv.Opens {p : Nat} {T T' : Type} [AddCommGroup T] [AddCommGroup T'] (E : JEnv p T T')
    (A : E.ringQ.Lawful) (A' : E.ringQ'.Lawful) (v : List (ZMod p)) (com : List T') (o : JOpen T T')
    (I : JInts) : Prop where
  comLen : com.length = E.par.outRank
  inLen : o.inCommit.length = E.par.dcmpLen
  encLen : o.encode.length = E.par.mat.cols + 1
  encLen2 : ∀ r ∈ o.encode, r.length = E.par.mat.rows
  mlweLen : o.mlwe.length = E.par.mat.cols + 1
  mlweLen2 : ∀ r ∈ o.mlwe, r.length = E.par.mlweRank + E.par.inRank
  enc : ∀ j ≤ E.par.mat.cols, ∀ k < E.par.mat.rows, (I.e j k).length = E.par.enc.N ∧
    A.val (at2 o.encode j k) = toR E.ringQ.qs E.ringQ.N (I.e j k)
  mlwe : ∀ j ≤ E.par.mat.cols, ∀ k < E.par.mlweRank + E.par.inRank,
    (I.m j k).length = E.par.enc.N ∧ A.val (at2 o.mlwe j k) = toR E.ringQ.qs E.ringQ.N (I.m j k)
  trunc : ∀ j ≤ E.par.mat.cols, ∀ k < E.par.inRank, (I.t j k).length = E.par.enc.N ∧
    A'.val (o.inCommit.getD (j * E.par.inRank + k) 0) = toR E.ringQ'.qs E.ringQ'.N (I.t j k)
  truncSize : ∀ j ≤ E.par.mat.cols, ∀ k < E.par.inRank, ∀ c ∈ I.t j k,
    2 ^ (E.par.inCut + 1) * |c| ≤ E.ringQ.qs.prod + 1 + 2 ^ (E.par.inCut + 1)
  inner : ∀ j ≤ E.par.mat.cols, ∀ k < E.par.inRank,
    ∑ l ∈ range E.par.mat.rows, A.val (at2 E.key.inn k l) * toR E.ringQ.qs E.ringQ.N (I.e j l) +
      ∑ l ∈ range E.par.mlweRank, A.val (at2 E.key.mlwe k l) * toR E.ringQ.qs E.ringQ.N (I.m j l) +
      toR E.ringQ.qs E.ringQ.N (I.m j (E.par.mlweRank + k)) =
    2 ^ E.par.inCut * toR E.ringQ.qs E.ringQ.N (I.t j k) + toR E.ringQ.qs E.ringQ.N (I.rho j k)
  innerRem : ∀ j ≤ E.par.mat.cols, ∀ k < E.par.inRank, (I.rho j k).length = E.par.enc.N ∧
    ∀ r ∈ I.rho j k, 0 ≤ r ∧ r < 2 ^ E.par.inCut
  outer : ∀ k < E.par.outRank,
    ∑ l ∈ range E.par.dcmpLen, A'.val (at2 E.key.out k l) * A'.val (o.inCommit.getD l 0) =
    2 ^ E.par.outCut * A'.val (com.getD k 0) + toR E.ringQ'.qs E.ringQ'.N (I.sig k)
  outerRem : ∀ k < E.par.outRank, (I.sig k).length = E.par.enc.N ∧
    ∀ r ∈ I.sig k, 0 ≤ r ∧ r < 2 ^ E.par.outCut
  eval : ∀ x : ZMod p, ∑ k ∈ range E.par.mat.rows, E.leftAt x k *
      ∑ j ∈ range E.par.mat.cols, ∑ s ∈ range E.par.mat.slots,
        (decoded p E.par.enc (I.e j k)).getD s 0 * x ^ (j * E.par.mat.slots + s) =
    ∑ t ∈ range v.length, v.getD t 0 * x ^ t

namespace JEnv

variable {p : Nat} {T T' : Type} [AddCommGroup T] [AddCommGroup T']

/-- The lists of a proof have the lengths the parameters give; the commitments may be longer. -/
structure Shape (E : JEnv p T T') (com : List (List T')) (y : List (ZMod p)) (pf : JProof T T') :
    Prop where
  comLen : com.length = E.par.batch
  comLen2 : ∀ c ∈ com, E.par.outRank ≤ c.length
  yLen : y.length = E.par.batch
  inCommit : pf.inCommit.length = E.par.dcmpLen
  parts : pf.parts.length = E.par.mat.cols
  encode : pf.encode.length = E.par.mat.rows
  mlwe : pf.mlwe.length = E.par.mlweRank + E.par.inRank

/-- `t` is the polynomial with the integer coefficients `z`. -/
def Rep {U : Type} [AddCommGroup U] {L : LRing U} (A : L.Lawful) (t : U) (z : List Int) : Prop :=
  z.length = L.N ∧ A.val t = toR L.qs L.N z

end JEnv

/-- Integers behind a proof: the inner commitments, the remainder of the outer commitment, the
responses, the remainder of the inner commitments, and the partial evaluations. -/
structure JWit where
  t : Nat → List Int
  s : Nat → List Int
  e : Nat → List Int
  m : Nat → List Int
  u : Nat → List Int
  f : Nat → List Int

/-- What the verifier is convinced of: the proof stands for integers of small norm that open the
batched commitment, the responses open the combination of the inner commitments by the challenges,
their combination by powers of `x` is the combination of the partial evaluations by the challenges,
and the partial evaluations decode to the batched value. -/
structure JEnv.Accepted {p : Nat} {T T' : Type} [AddCommGroup T] [AddCommGroup T'] (E : JEnv p T T')
    (A : E.ringQ.Lawful) (A' : E.ringQ'.Lawful) (x : ZMod p) (com : List (List T'))
    (y : List (ZMod p)) (pf : JProof T T') (W : JWit) : Prop where
  shape : E.Shape com y pf
  inCommit : ∀ l < E.par.dcmpLen, Rep A' (pf.inCommit.getD l 0) (W.t l)
  sLen : ∀ k < E.par.outRank, (W.s k).length = E.ringQ'.N
  encode : ∀ k < E.par.mat.rows, Rep A (pf.encode.getD k 0) (W.e k)
  mlwe : ∀ k < E.par.mlweRank + E.par.inRank, Rep A (pf.mlwe.getD k 0) (W.m k)
  uLen : ∀ k < E.par.inRank, (W.u k).length = E.ringQ.N
  parts : ∀ j < E.par.mat.cols, Rep A (pf.parts.getD j 0) (W.f j)
  outer : ∀ k < E.par.outRank,
    2 ^ E.par.outCut * ∑ i ∈ range E.par.batch,
      toR E.ringQ'.qs E.ringQ'.N (E.betInt x com i) * A'.val (at2 com i k) =
    ∑ l ∈ range E.par.dcmpLen, A'.val (at2 E.key.out k l) * toR E.ringQ'.qs E.ringQ'.N (W.t l) +
      toR E.ringQ'.qs E.ringQ'.N (W.s k)
  outerNorm : E.toFloat (Nat.sqrt (jSqSum ((List.range E.par.dcmpLen).map W.t ++
    (List.range E.par.outRank).map W.s))) < E.par.dcmpNm
  inner : ∀ k < E.par.inRank,
    2 ^ E.par.inCut * (toR E.ringQ.qs E.ringQ.N (W.t (E.par.mat.cols * E.par.inRank + k)) +
      ∑ j ∈ range E.par.mat.cols, toR E.ringQ.qs E.ringQ.N (E.gamInt x com pf.parts pf.partMask j) *
        toR E.ringQ.qs E.ringQ.N (W.t (j * E.par.inRank + k))) =
    ∑ l ∈ range E.par.mat.rows, A.val (at2 E.key.inn k l) * toR E.ringQ.qs E.ringQ.N (W.e l) +
      ∑ l ∈ range E.par.mlweRank, A.val (at2 E.key.mlwe k l) * toR E.ringQ.qs E.ringQ.N (W.m l) +
      toR E.ringQ.qs E.ringQ.N (W.m (E.par.mlweRank + k)) + toR E.ringQ.qs E.ringQ.N (W.u k)
  innerNorm : E.toFloat (Nat.sqrt (jSqSum ((List.range E.par.mat.rows).map W.e ++
    (List.range (E.par.mlweRank + E.par.inRank)).map W.m ++
    (List.range E.par.inRank).map W.u))) < E.par.resNm
  consistent :
    ∑ k ∈ range E.par.mat.rows, toR E.ringQ.qs E.ringQ.N (E.leftInt x k) *
      toR E.ringQ.qs E.ringQ.N (W.e k) =
    ∑ j ∈ range E.par.mat.cols, toR E.ringQ.qs E.ringQ.N (E.gamInt x com pf.parts pf.partMask j) *
      toR E.ringQ.qs E.ringQ.N (W.f j) + A.val pf.partMask
  eval :
    ∑ j ∈ range E.par.mat.cols, ∑ s ∈ range E.par.mat.slots, x ^ (j * E.par.mat.slots + s) *
      (decoded p E.par.enc (W.f j)).getD s 0 =
    ∑ i ∈ range E.par.batch, (decoded p E.par.enc (E.betInt x com i)).getD 0 0 * y.getD i 0

/-- The integers behind an honest proof: combinations, over `ℤ[X]/(X^N + 1)`, of the integers
behind the openings by the challenges. -/
structure JEnv.Honest {p : Nat} {T T' : Type} (E : JEnv p T T') (x : ZMod p) (com : List (List T'))
    (pf : JProof T T') (I : Nat → JInts) (W : JWit) : Prop where
  t : ∀ j ≤ E.par.mat.cols, ∀ k < E.par.inRank,
    (W.t (j * E.par.inRank + k)).length = E.par.enc.N ∧
    toZ E.par.enc.N (W.t (j * E.par.inRank + k)) = ∑ i ∈ range E.par.batch,
      toZ E.par.enc.N (E.betInt x com i) * toZ E.par.enc.N ((I i).t j k)
  s : ∀ k < E.par.outRank, (W.s k).length = E.par.enc.N ∧
    toZ E.par.enc.N (W.s k) = -∑ i ∈ range E.par.batch,
      toZ E.par.enc.N (E.betInt x com i) * toZ E.par.enc.N ((I i).sig k)
  e : ∀ k < E.par.mat.rows, (W.e k).length = E.par.enc.N ∧
    toZ E.par.enc.N (W.e k) = ∑ i ∈ range E.par.batch, toZ E.par.enc.N (E.betInt x com i) *
      (toZ E.par.enc.N ((I i).e E.par.mat.cols k) + ∑ j ∈ range E.par.mat.cols,
        toZ E.par.enc.N (E.gamInt x com pf.parts pf.partMask j) * toZ E.par.enc.N ((I i).e j k))
  m : ∀ k < E.par.mlweRank + E.par.inRank, (W.m k).length = E.par.enc.N ∧
    toZ E.par.enc.N (W.m k) = ∑ i ∈ range E.par.batch, toZ E.par.enc.N (E.betInt x com i) *
      (toZ E.par.enc.N ((I i).m E.par.mat.cols k) + ∑ j ∈ range E.par.mat.cols,
        toZ E.par.enc.N (E.gamInt x com pf.parts pf.partMask j) * toZ E.par.enc.N ((I i).m j k))
  u : ∀ k < E.par.inRank, (W.u k).length = E.par.enc.N ∧
    toZ E.par.enc.N (W.u k) = -∑ i ∈ range E.par.batch, toZ E.par.enc.N (E.betInt x com i) *
      (toZ E.par.enc.N ((I i).rho E.par.mat.cols k) + ∑ j ∈ range E.par.mat.cols,
        toZ E.par.enc.N (E.gamInt x com pf.parts pf.partMask j) * toZ E.par.enc.N ((I i).rho j k))
  f : ∀ j < E.par.mat.cols, (W.f j).length = E.par.enc.N ∧
    toZ E.par.enc.N (W.f j) = ∑ k ∈ range E.par.mat.rows, toZ E.par.enc.N (E.leftInt x k) *
      ∑ i ∈ range E.par.batch, toZ E.par.enc.N (E.betInt x com i) * toZ E.par.enc.N ((I i).e j k)

end Ringo
