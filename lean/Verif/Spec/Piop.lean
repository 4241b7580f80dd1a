import Verif.Model.Context
import Verif.Spec.Poly
import Verif.Spec.BitRev

/-!
# Specification: what a constraint says about a row, and about polynomials

Nothing here mentions the prover or the verifier.
-/

namespace Ringo

open Finset Polynomial

/-- The value `coeff * pub * wit * wit * ...` of a term. -/
def Term.value {F : Type} [CommRing F] (t : Term F) (pub wit : Nat → F) : F :=
  t.coeff * (match t.pub with | some i => pub i | none => 1) * (t.wits.map wit).prod

/-- The value of a constraint: the sum of its terms. -/
def Constraint.value {F : Type} [CommRing F] (c : Constraint F) (pub wit : Nat → F) : F :=
  (c.map (fun t => t.value pub wit)).sum

/-- The polynomial obtained by putting polynomials for the witnesses. -/
noncomputable def Constraint.poly {F : Type} [CommRing F] (c : Constraint F)
    (pub wit : Nat → F[X]) : F[X] :=
  Constraint.value (c.map (fun t => ⟨C t.coeff, t.pub, t.wits⟩)) pub wit

/-- Row `i` of a table of vectors. -/
def rowOf {F : Type} [Zero F] (t : List (List F)) (i : Nat) : Nat → F := fun a => (t.getD a []).getD i 0

/-- The value of a constraint on row `i`. -/
def Constraint.onRow {F : Type} [CommRing F] (c : Constraint F) (pw sw : List (List F)) (i : Nat) :
    F := c.value (rowOf pw i) (rowOf sw i)

/-- The witnesses a constraint mentions exist. -/
def Constraint.Refs {F : Type} (c : Constraint F) (pwCnt wCnt : Nat) : Prop :=
  ∀ t ∈ c, (∀ i, t.pub = some i → i < pwCnt) ∧ ∀ j ∈ t.wits, j < wCnt

/-- The call only mentions witnesses of the circuit (`pw0` public, `w0` secret ones). -/
def CtxOp.Valid {F : Type} (pw0 w0 : Nat) : CtxOp F → Prop
  | .arith c => c.Refs pw0 w0
  | .sum c _ => c.Refs pw0 w0
  | .lin o i _ => o < w0 ∧ i < w0
  | .inf w _ => w < w0
  | .sq w _ => w < w0
  | .approx w _ => w < w0

end Ringo
