import Verif.Model.Poly

/-!
# Model of `buckler/encoder.go`

`p[:n]` panics here when `n` exceeds the length; Go would allow it up to the capacity, which for
the slices made by `NewPoly` and by callers' `make` is the length.
-/

namespace Ringo

/-- encoder.go:9-12 (`Encoder`). -/
structure BEncoder (F : Type) where
  ntt : Transformer F
  embedRank : Nat

namespace BEncoder
variable {F : Type} [Zero F] [Add F] [Sub F] [Mul F]

/-- encoder.go:32-38 (`EncodeTo`). -/
def encodeTo (e : BEncoder F) (pOut : Poly F) (v : List F) : Go (Poly F) :=
  if pOut.coeffs.length < e.ntt.rank then goPanic
  else if v.length < e.ntt.rank then goPanic
  else do
    let lo ← e.ntt.invNTTTo (pOut.coeffs.take e.ntt.rank) (v.take e.ntt.rank)
    let out := lo ++ pOut.coeffs.drop e.ntt.rank
    let out ← forRange e.ntt.rank out.length 1 out (fun out i => setIdx out i 0)
    pure ⟨out, false⟩

/-- encoder.go:24-28 (`Encode`). -/
def encode (e : BEncoder F) (v : List F) : Go (Poly F) := e.encodeTo (newPoly e.embedRank false) v

/-- encoder.go:50-54 (`RandEncodeTo`); `r` is the element drawn by `MustSetRandom`. -/
def randEncodeTo (e : BEncoder F) (pOut : Poly F) (v : List F) (r : F) : Go (Poly F) := do
  let p ← e.encodeTo pOut v
  let c ← setIdx p.coeffs e.ntt.rank r
  let c0 ← idx c 0
  let cr ← idx c e.ntt.rank
  let c ← setIdx c 0 (c0 - cr)
  pure ⟨c, p.isNTT⟩

/-- encoder.go:42-46 (`RandEncode`). -/
def randEncode (e : BEncoder F) (v : List F) (r : F) : Go (Poly F) :=
  e.randEncodeTo (newPoly e.embedRank false) v r

end BEncoder

/-- encoder.go:15-20 (`newEncoder`). -/
def newBEncoder (p : Nat) [Fact p.Prime] (rank embedRank : Nat) : Go (BEncoder (ZMod p)) := do
  let ntt ← newCyclicTransformer p rank
  pure ⟨ntt, embedRank⟩

end Ringo
