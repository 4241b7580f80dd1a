import Verif.Model.Piop
import Verif.Model.JProto

/-!
# Specification: what the challenges are hashes of
-/

namespace Ringo

/-- The rule of the Fiat-Shamir transcript: a challenge is the hash of its name, the previous challenge
and everything bound to it.  These are the inputs of the hash function, for a list of rounds. -/
def fsInputs (hash : Bytes → Bytes) : Bytes → List (Bytes × List Bytes) → List Bytes
  | _, [] => []
  | prev, (name, msgs) :: rest =>
    (name ++ prev ++ msgs.flatten) :: fsInputs hash (hash (name ++ prev ++ msgs.flatten)) rest

/-- The bytes of the commitments with the given indices. -/
def comBytes {p : Nat} (E : Env (ZMod p)) (π : BProof (ZMod p) E.pcs) (is : List Nat) : List Bytes :=
  is.filterMap fun i => π.witness[i]?.map E.pcs.ser

/-- The rounds of Buckler: the witnesses that do not depend on the projection matrix; those that do, and
the masks of the linear check and of the sumcheck with their sums; all other polynomials. -/
def bucklerRounds {p : Nat} (E : Env (ZMod p)) (ctx : Context (ZMod p)) (π : BProof (ZMod p) E.pcs) :
    List (Bytes × List Bytes) :=
  let lin := if ctx.lin = [] then 0 else 1
  let sum := if ctx.sums = [] then 0 else 1
  [("projConst".toUTF8.toList, comBytes E π ((List.range ctx.wCnt).filter (· ∉ ctx.wSecond))),
   ("arithBatchConst".toUTF8.toList, comBytes E π ctx.wSecond ++
      (if ctx.lin = [] then [] else
        comBytes E π [ctx.wCnt] ++ [E.marshal (π.linMaskSum.getD 0)]) ++
      (if ctx.sums = [] then [] else
        comBytes E π [ctx.wCnt + lin] ++ [E.marshal (π.sumMaskSum.getD 0)])),
   ("linCheckBatchConst".toUTF8.toList, []), ("linCheckConst".toUTF8.toList, []),
   ("sumCheckBatchConst".toUTF8.toList, []),
   ("evalPoint".toUTF8.toList, (π.witness.drop (ctx.wCnt + lin + sum)).map E.pcs.ser)]

/-- All inputs of the hash function for the proof `π`. -/
def bucklerInputs {p : Nat} (E : Env (ZMod p)) (ctx : Context (ZMod p)) (π : BProof (ZMod p) E.pcs) :
    List Bytes := fsInputs E.hash [] (bucklerRounds E ctx π)

/-- What Jindo's batching challenges are hashes of: the CRS, the commitments and the point. -/
def jindoFirst {p : Nat} {T T' : Type} (E : JEnv p T T') (x : ZMod p) (com : List (List T')) :
    List (JMsg T T' (ZMod p)) :=
  [.crs E.key.crs] ++ com.flatten.map .com ++ [.point x]

/-- What Jindo's column challenges are hashes of: in addition, the batching challenges (if there are
any) and the partial evaluations. -/
def jindoSecond {p : Nat} {T T' : Type} (E : JEnv p T T') (x : ZMod p) (com : List (List T'))
    (pf : JProof T T') : List (JMsg T T' (ZMod p)) :=
  jindoFirst E x com ++
    (if E.par.batch > 1 then
      [.bytes ((List.range E.par.batch).map (E.xof (jindoFirst E x com))).flatten] else []) ++
    pf.parts.map .poly ++ [.poly pf.partMask]

end Ringo
