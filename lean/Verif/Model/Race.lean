import Verif.Model.Piop

/-!
# Model of the matrix shared by the prover and the verifier

`Compile` (compile.go:183-204) puts the same `*Context` into the `Prover` and the `Verifier`.  The
only field that is written after compilation is the matrix of `ctx.projChecker`: both `Prove` and
`Verify` fill it in from their own transcript and read it again in the linear check.  This file models
the accesses of one call to that matrix, as a sequence of atomic reads and writes of single entries.
What the calls do in between does not touch the matrix and is left out.  Go gives fewer guarantees
than this to racing accesses; the model is sequentially consistent.
-/

namespace Ringo

/-- An access to `chk.proj[i][j]`. -/
inductive ProjAct
  | write (i j : Nat) (b : Bool)
  | read (i j : Nat)
  deriving DecidableEq

/-- prover.go:171-175 and verifier.go:105-110: filling in the matrix, column by column. -/
def projWrites (rank : Nat) (proj : List (List Bool)) : List ProjAct :=
  (List.range rank).flatMap (fun j => (List.range 128).map (fun i =>
    .write i j ((proj.getD i []).getD j false)))

/-- linear.go:113-118 and 130-136: `TransformTo` and `TransposeTo` read the matrix row by row. -/
def projReads (rank : Nat) : List ProjAct :=
  (List.range 128).flatMap (fun i => (List.range rank).map (fun j => .read i j))

/-- The accesses of a call of `Prove` (prover.go:168-180) or `Verify` (verifier.go:102-111, 276) up to
its first use of the matrix. -/
def projRun (rank : Nat) (proj : List (List Bool)) : List ProjAct :=
  projWrites rank proj ++ projReads rank

/-- The shared matrix after an access. -/
def ProjAct.next (m : Nat → Nat → Bool) : ProjAct → (Nat → Nat → Bool)
  | .write i j b => fun i' j' => if i' = i ∧ j' = j then b else m i' j'
  | .read _ _ => m

/-- The value an access reads. -/
def ProjAct.value (m : Nat → Nat → Bool) : ProjAct → Option Bool
  | .write _ _ _ => none
  | .read i j => some (m i j)

/-- The values read by thread `t` when the accesses `s` (each with the thread that makes it) are made
in this order. -/
def readsBy (t : Bool) : List (Bool × ProjAct) → (Nat → Nat → Bool) → List Bool
  | [], _ => []
  | (t', a) :: s, m =>
    (if t' = t then (a.value m).toList else []) ++ readsBy t s (a.next m)

/-- `s` is an interleaving of the accesses `a` of the prover (thread `true`) and `b` of the verifier
(thread `false`). -/
def Interleaves (s : List (Bool × ProjAct)) (a b : List ProjAct) : Prop :=
  (s.filter (fun x => x.1)).map (·.2) = a ∧ (s.filter (fun x => !x.1)).map (·.2) = b

end Ringo
