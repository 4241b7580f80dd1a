import Verif.Model.JLimbs

/-!
# Specification for `jindo/entities.go`
-/

namespace Ringo

/-- A list of length `n` all of whose elements have the property. -/
structure AllOf {α : Type} (n : Nat) (p : α → Prop) (l : List α) : Prop where
  len : l.length = n
  all : ∀ x ∈ l, p x

/-- A polynomial with `L` rows of `n` coefficients. -/
def HasShape (L n : Nat) : LimbPoly → Prop := AllOf L fun row => row.length = n

/-- A polynomial of the ring, all residues reduced. -/
def LimbRing.Reduced (R : LimbRing) (p : LimbPoly) : Prop :=
  HasShape R.moduli.length R.n p ∧
    ∀ (l : Nat) (row : List Nat) (q : Nat), p[l]? = some row → R.moduli[l]? = some q → ∀ x ∈ row, x < q

/-- A matrix of polynomials. -/
def MatOf (a b : Nat) (p : LimbPoly → Prop) : List (List LimbPoly) → Prop := AllOf a (AllOf b p)

/-- A key with the dimensions of the parameters. -/
structure LimbKey.Fits (K : LimbKey) (P : LimbPar) : Prop where
  inn : MatOf P.inRank P.rows (HasShape P.ringQ.moduli.length P.ringQ.n) K.inn
  mlwe : MatOf P.inRank P.mlweRank (HasShape P.ringQ.moduli.length P.ringQ.n) K.mlwe
  out : MatOf P.outRank P.dcmpLen (HasShape P.ringQOut.moduli.length P.ringQOut.n) K.out

/-- Functions that keep the length of a row. -/
structure RowFns.Keep (F : RowFns) (n : Nat) : Prop where
  mulAdd : ∀ i rows row, row.length = n → (F.mulAdd i rows row).length = n
  add : ∀ i rows row, row.length = n → (F.add i rows row).length = n
  unload : ∀ i rows row, row.length = n → (F.unload i rows row).length = n
  load : ∀ i rows row, row.length = n → (F.load i rows row).length = n

structure ComFns.Keep (F : ComFns) (n : Nat) : Prop where
  enc : ∀ a b i rows row, row.length = n → (F.enc a b i rows row).length = n
  mlwe : ∀ a b i rows row, row.length = n → (F.mlwe a b i rows row).length = n
  q : F.q.Keep n
  qOut : F.qOut.Keep n

/-- What `NewParameters` guarantees about the dimensions. -/
structure LimbPar.Ok (P : LimbPar) : Prop where
  rows : 2 ≤ P.rows
  cols : 1 ≤ P.cols
  slots : 1 ≤ P.slots
  outRank : 1 ≤ P.outRank
  dcmpLen : P.dcmpLen = (P.cols + 1) * P.inRank
  limbs : 1 ≤ P.ringQ.moduli.length
  limbsOut : 1 ≤ P.ringQOut.moduli.length
  degree : P.ringQOut.n = P.ringQ.n

end Ringo
