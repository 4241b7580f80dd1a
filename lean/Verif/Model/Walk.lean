import Verif.Go
import Mathlib.Data.ZMod.Basic

/-!
# Model of `buckler/compile.go`: handles and walkers

A circuit value, as seen through `reflect`, is a tree.  Each leaf of type `PublicWitness` or
`Witness` carries what `reflect` says about it: `canSet` (the value is addressable and was not
reached through an unexported field) and `canIface` (it was not reached through an unexported
field, so `Interface()` does not panic).
-/

namespace Ringo

/-- compile.go:18-32 (`idToWitness` for `Witness`): `SetUint64` reduces into the field. -/
def idToWitness (p : Nat) (id : UInt64) : List (ZMod p) := [(((id + 1) <<< 1).toNat : ZMod p)]

/-- compile.go:18-32 (`idToWitness` for `PublicWitness`). -/
def idToPublicWitness (p : Nat) (id : UInt64) : List (ZMod p) :=
  [((((id + 1) <<< 1) + 1).toNat : ZMod p)]

/-- compile.go:34-40 (`witnessToID`).  `Slice` writes the little-endian limbs of the canonical
representative; `digits[0]` is its value modulo `2^64`. -/
def witnessToID {p : Nat} (w : List (ZMod p)) : Go UInt64 := do
  let w0 ← idx w 0
  let digits0 := UInt64.ofNat (w0.val % 2 ^ 64)
  pure ((digits0 >>> 1) - 1)

/-- A circuit value. -/
inductive Val (F : Type)
  /-- a field of type `PublicWitness[E]` -/
  | pub (canSet canIface : Bool) (w : List F)
  /-- a field of type `Witness[E]` -/
  | wit (canSet canIface : Bool) (w : List F)
  /-- a non-nil pointer or interface -/
  | ptr (v : Val F)
  /-- a nil pointer or interface -/
  | nilPtr
  /-- a struct (its fields), slice or array (its elements) -/
  | fields (vs : List (Val F))
  /-- any other kind -/
  | other

/-- The counters of compile.go:42-46 (`walker`). -/
structure Cnt where
  pw : Nat
  w : Nat
  deriving DecidableEq

mutual
/-- compile.go:49-86 (`firstWalk`): the value with the handles stored, the counters, and whether
the call itself returned an error.  Errors of nested calls are dropped (lines 71, 75, 79). -/
def firstWalk {p : Nat} : Val (ZMod p) → Cnt → Val (ZMod p) × Cnt × Bool
  | .pub s i w, c =>
    if s then (.pub s i (idToPublicWitness p (UInt64.ofNat c.pw)), { c with pw := c.pw + 1 }, false)
    else (.pub s i w, c, true)
  | .wit s i w, c =>
    if s then (.wit s i (idToWitness p (UInt64.ofNat c.w)), { c with w := c.w + 1 }, false)
    else (.wit s i w, c, true)
  | .ptr v, c => let r := firstWalk v c; (.ptr r.1, r.2.1, false)
  | .nilPtr, c => (.nilPtr, c, false)
  | .fields vs, c => let r := firstWalks vs c; (.fields r.1, r.2, false)
  | .other, c => (.other, c, false)
/-- The loops over fields and elements (lines 74-76, 78-80). -/
def firstWalks {p : Nat} : List (Val (ZMod p)) → Cnt → List (Val (ZMod p)) × Cnt
  | [], c => ([], c)
  | v :: vs, c =>
    let r := firstWalk v c
    let rs := firstWalks vs r.2.1
    (r.1 :: rs.1, rs.2)
end

/-- The slices the prover's walker fills, and its counters. -/
structure WalkState (F : Type) where
  pw : List (List F)
  sw : List (List F)
  cnt : Cnt

mutual
/-- compile.go:89-126 (`prvWalk`): new state, and whether the call itself returned an error.
Errors of nested calls are dropped (lines 111, 115, 119). -/
def prvWalk {F : Type} (rank : Nat) : Val F → WalkState F → Go (WalkState F × Bool)
  | .pub _ i w, st => do
    if !i then goPanic
    let pw ← setIdx st.pw st.cnt.pw w
    if w.length ≠ rank then pure ({ st with pw := pw }, true)
    else pure ({ st with pw := pw, cnt := { st.cnt with pw := st.cnt.pw + 1 } }, false)
  | .wit _ i w, st => do
    if !i then goPanic
    let sw ← setIdx st.sw st.cnt.w w
    if w.length ≠ rank then pure ({ st with sw := sw }, true)
    else pure ({ st with sw := sw, cnt := { st.cnt with w := st.cnt.w + 1 } }, false)
  | .ptr v, st => do
    let r ← prvWalk rank v st
    pure (r.1, false)
  | .nilPtr, st => pure (st, false)
  | .fields vs, st => do
    let st ← prvWalks rank vs st
    pure (st, false)
  | .other, st => pure (st, false)
/-- The loops over fields and elements (lines 114-116, 118-120). -/
def prvWalks {F : Type} (rank : Nat) : List (Val F) → WalkState F → Go (WalkState F)
  | [], st => pure st
  | v :: vs, st => do
    let r ← prvWalk rank v st
    prvWalks rank vs r.1
end

/-- The slice the verifier's walker fills, and its counter. -/
structure VWalkState (F : Type) where
  pw : List (List F)
  cnt : Nat

mutual
/-- compile.go:129-158 (`vrfWalk`).  A `Witness` is a slice, so the verifier descends into it; its
elements are pointers to field elements, arrays of words, and nothing happens. -/
def vrfWalk {F : Type} (rank : Nat) : Val F → VWalkState F → Go (VWalkState F × Bool)
  | .pub _ i w, st => do
    if !i then goPanic
    let pw ← setIdx st.pw st.cnt w
    if w.length ≠ rank then pure ({ st with pw := pw }, true)
    else pure ({ pw := pw, cnt := st.cnt + 1 }, false)
  | .wit _ _ _, st => pure (st, false)
  | .ptr v, st => do
    let r ← vrfWalk rank v st
    pure (r.1, false)
  | .nilPtr, st => pure (st, false)
  | .fields vs, st => do
    let st ← vrfWalks rank vs st
    pure (st, false)
  | .other, st => pure (st, false)
/-- The loops over fields and elements. -/
def vrfWalks {F : Type} (rank : Nat) : List (Val F) → VWalkState F → Go (VWalkState F)
  | [], st => pure st
  | v :: vs, st => do
    let r ← vrfWalk rank v st
    vrfWalks rank vs r.1
end

/-- prover.go:49-70: the walk and the zero-filling of the remaining slots. -/
def prvCollect {F : Type} [Zero F] (rank pwCnt wCnt : Nat) (c : Val F) :
    Go (List (List F) × List (List F) × Bool) := do
  let (st, err) ← prvWalk rank c ⟨List.replicate pwCnt [], List.replicate wCnt [], ⟨0, 0⟩⟩
  if err then pure (st.pw, st.sw, true)
  else
    let zero := List.replicate rank (0 : F)
    pure (st.pw.take st.cnt.pw ++ List.replicate (pwCnt - st.cnt.pw) zero,
      st.sw.take st.cnt.w ++ List.replicate (wCnt - st.cnt.w) zero, false)

/-- verifier.go:36-47. -/
def vrfCollect {F : Type} [Zero F] (rank pwCnt : Nat) (c : Val F) :
    Go (List (List F) × Bool) := do
  let (st, err) ← vrfWalk rank c ⟨List.replicate pwCnt [], 0⟩
  if err then pure (st.pw, true)
  else pure (st.pw.take st.cnt ++ List.replicate (pwCnt - st.cnt) (List.replicate rank (0 : F)), false)

end Ringo
