import Verif.Spec.Sound
import Verif.Spec.Asker
import Verif.Props.LinSum
import Mathlib.Data.FinEnum
import Mathlib.SetTheory.Cardinal.Finite

/-!
# Specification: a prover that may call the hash function
-/

namespace Ringo

/-- A hash value of `H` bytes. -/
abbrev Digest (H : Nat) : Type := Fin H → UInt8

/-- What the hash function is called with: at most `n` bytes. -/
abbrev Query (n : Nat) : Type := {b : Bytes // b.length ≤ n}

/-- A function from strings of at most `n` bytes to hash values.  There are finitely many, so that one may
count them. -/
abbrev ROracle (n H : Nat) : Type := Query n → Digest H

/-- The hash function (longer strings have the empty hash value; nothing depends on it). -/
def ROracle.hash {n H : Nat} (h : ROracle n H) (b : Bytes) : Bytes :=
  if hb : b.length ≤ n then List.ofFn (h ⟨b, hb⟩) else []

/-- The environment with another hash function. -/
def Env.withHash {F : Type} (E : Env F) (h : Bytes → Bytes) : Env F := { E with hash := h }

/-- The commitments of the proof `π` are commitments to encodings of witnesses that satisfy what the checks
enforce, for the public witnesses of the circuit `c` and the projection matrix drawn for `π`. -/
def Witnessed {p : Nat} [Fact p.Prime] (E : Env (ZMod p)) (cp : Compilation (ZMod p))
    (poly : E.pcs.Com → List (ZMod p)) (two : List TwoEntry) (c : Circ (ZMod p))
    (π : BProof (ZMod p) E.pcs) : Prop :=
  ∃ pw ch l s k, assignV cp two c.val = .ok (some pw) ∧ challengesV E cp π = .ok (some (ch, l, s, k)) ∧
    ∃ sw : List (List (ZMod p)), sw.length = cp.ctx.wCnt ∧ (∀ v ∈ sw, v.length = cp.ctx.rank) ∧
      (∀ (i : Nat) (v : List (ZMod p)) (u : E.pcs.Com), sw[i]? = some v → π.witness[i]? = some u →
        Encodes cp v (poly u)) ∧
      Enforced cp.ctx E.users (projMatrix E.xof ch.proj cp.ctx.rank) pw sw

end Ringo
