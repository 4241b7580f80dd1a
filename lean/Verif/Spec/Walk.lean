import Verif.Model.Walk

/-!
# Shapes and paths of circuit values

Stated without the walkers: `get?` follows a path of field numbers (a pointer has the single
child 0).
-/

namespace Ringo

/-- The value found by following a path. -/
def Val.get? {F : Type} : Val F → List Nat → Option (Val F)
  | v, [] => some v
  | .ptr v, 0 :: rest => v.get? rest
  | .fields vs, i :: rest =>
    match vs[i]? with
    | some v => v.get? rest
    | none => none
  | _, _ :: _ => none
  termination_by _ path => path.length

/-- There is no witness anywhere in the value. -/
def NoLeaf {F : Type} (v : Val F) : Prop :=
  ∀ path s i w, v.get? path ≠ some (.pub s i w) ∧ v.get? path ≠ some (.wit s i w)

/-- Equality up to the contents (and the `reflect` flags) of the witness leaves, and up to parts without
witnesses (such as a `LinearChecker` that is set in the compiled circuit and nil in the assignment). -/
inductive SameShape {F G : Type} : Val F → Val G → Prop
  | pub {s i w s' i' w'} : SameShape (.pub s i w) (.pub s' i' w')
  | wit {s i w s' i' w'} : SameShape (.wit s i w) (.wit s' i' w')
  | ptr {v v'} : SameShape v v' → SameShape (.ptr v) (.ptr v')
  | nilPtr : SameShape .nilPtr .nilPtr
  | nil : SameShape (.fields []) (.fields [])
  | cons {v v' vs vs'} : SameShape v v' → SameShape (.fields vs) (.fields vs') →
      SameShape (.fields (v :: vs)) (.fields (v' :: vs'))
  | other : SameShape .other .other
  | noLeaf {v v'} : NoLeaf v → NoLeaf v' → SameShape v v'

/-- Every leaf can be set by `reflect` (all fields on the way are exported). -/
def Settable {F : Type} (v : Val F) : Prop :=
  ∀ path s i w, (v.get? path = some (.pub s i w) ∨ v.get? path = some (.wit s i w)) → s = true

/-- Every leaf can be read by `reflect` and holds a vector of `rank` elements. -/
def FullRank {F : Type} (rank : Nat) (v : Val F) : Prop :=
  ∀ path s i w, (v.get? path = some (.pub s i w) ∨ v.get? path = some (.wit s i w)) →
    i = true ∧ w.length = rank

end Ringo
