/-!
# Specification: programs that may call a function
-/

namespace Ringo

/-- A program that calls a function from `X` to `D` and then returns: it may choose each call knowing the
results of all calls before. -/
inductive Asker (X D α : Type) : Type
  | answer : α → Asker X D α
  | ask : X → (D → Asker X D α) → Asker X D α

/-- What the program returns, for a given function. -/
def Asker.run {X D α : Type} (h : X → D) : Asker X D α → α
  | .answer a => a
  | .ask q k => (k (h q)).run h

/-- The program makes at most the given number of calls. -/
def Asker.AtMost {X D α : Type} : Nat → Asker X D α → Prop
  | _, .answer _ => True
  | 0, .ask _ _ => False
  | m + 1, .ask _ k => ∀ d, (k d).AtMost m

end Ringo
