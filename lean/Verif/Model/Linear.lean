import Verif.Model.Poly
import Verif.Model.Digits

/-!
# Model of `buckler/linear.go`

The `LinearChecker` interface is a record of its two methods; a method receives the output
slice and the input slice and returns the new contents of the output slice.  As in the code
base, output and input are different slices.
-/

namespace Ringo

/-- linear.go:12-17 (`LinearChecker`). -/
structure LinearChecker (F : Type) where
  transformTo : List F → List F → Go (List F)
  transposeTo : List F → List F → Go (List F)

section
variable {F : Type}

/-- linear.go:34-43, the two methods of `nttChecker`. -/
def nttChecker [Add F] [Sub F] [Mul F] (ntt : Transformer F) (scale : F) : LinearChecker F where
  transformTo vOut v := ntt.fwdNTTTo vOut v
  transposeTo vOut v := do
    let vOut ← forRange 0 ntt.rank 1 vOut (fun vOut i => do
      let c ← idx v (ntt.rank - 1 - i)
      setIdx vOut i (c * scale))
    ntt.invNTTTo vOut vOut

/-- linear.go:26-32 (`NewNTTChecker`). -/
def newNTTChecker (p : Nat) [Fact p.Prime] (rank : Nat) : Go (LinearChecker (ZMod p)) := do
  let ntt ← newCyclotomicTransformer p rank
  pure (nttChecker ntt (rank : ZMod p))

theorem modInverse_dec (a b : UInt64) (hb : b ≠ 0) : (a - a / b * b).toNat < b.toNat := by
  have hb' : 0 < b.toNat := by
    rcases Nat.eq_zero_or_pos b.toNat with h | h
    · exact absurd (UInt64.toNat_inj.1 (by simpa using h)) hb
    · exact h
  have h1 : (a / b * b).toNat = a.toNat / b.toNat * b.toNat := by
    rw [UInt64.toNat_mul, UInt64.toNat_div, Nat.mod_eq_of_lt]
    exact lt_of_le_of_lt (Nat.div_mul_le_self _ _) a.toNat_lt
  have h2 : a / b * b ≤ a := by
    rw [UInt64.le_iff_toNat_le, h1]; exact Nat.div_mul_le_self _ _
  rw [UInt64.toNat_sub_of_le _ _ h2, h1]
  have h3 := Nat.div_add_mod a.toNat b.toNat
  have h4 := Nat.mod_lt a.toNat hb'
  rw [Nat.mul_comm] at h3
  omega

/-- linear.go:80-84: the loop of `modInverse` on wrapping 64-bit integers. -/
def modInverseLoop (a b u v : UInt64) : UInt64 × UInt64 :=
  if b = 0 then (a, u)
  else
    let q := a / b
    modInverseLoop b (a - q * b) v (u - q * v)
  termination_by b.toNat
  decreasing_by exact modInverse_dec a b (by assumption)

/-- linear.go:75-91 (`modInverse`). -/
def modInverse (x m : UInt64) : Go UInt64 :=
  if m = 0 then goPanic
  else
    let x := x % m
    let (a, u) := modInverseLoop x m 1 0
    if a ≠ 1 then goPanic else pure (u % m)

/-- `uint64(idx)` for a Go `int`: two's complement. -/
def intToUint64 (i : Int) : UInt64 := UInt64.ofNat (i % 2 ^ 64).toNat

/-- linear.go:46-73 (`autChecker` and its methods); `buf` is the evaluator's pooled scratch
polynomial, whose contents are arbitrary. -/
def autChecker [Neg F] (ev : Evaluator F) (buf : Poly F) (i iInv : Int) (isNTT : Bool) :
    LinearChecker F where
  transformTo vOut v := do
    let q ← ev.autTo buf ⟨vOut, false⟩ ⟨v, isNTT⟩ i
    pure q.coeffs
  transposeTo vOut v := do
    let q ← ev.autTo buf ⟨vOut, false⟩ ⟨v, isNTT⟩ iInv
    pure q.coeffs

/-- linear.go:54-61 (`NewAutChecker`). -/
def newAutChecker [Neg F] (ev : Evaluator F) (buf : Poly F) (i : Int) (isNTT : Bool) :
    Go (LinearChecker F) := do
  let iInv ← modInverse (intToUint64 i) (UInt64.ofNat (2 * ev.rank))
  pure (autChecker ev buf i iInv.toNat isNTT)

/-- linear.go:94-137 (`projChecker` and its methods); `proj` has 128 rows (97-99), filled in from
the transcript by the prover and the verifier. -/
def projChecker [Zero F] [Add F] (proj : List (List Bool)) : LinearChecker F where
  transformTo vOut v := do
    let vOut ← forRange 0 proj.length 1 vOut (fun vOut i => setIdx vOut i 0)
    let vOut ← forRange 0 proj.length 1 vOut (fun vOut i => do
      let row ← idx proj i
      forRange 0 row.length 1 vOut (fun vOut j => do
        let b ← idx row j
        if b then
          let o ← idx vOut i
          let c ← idx v j
          setIdx vOut i (o + c)
        else pure vOut))
    forRange proj.length vOut.length 1 vOut (fun vOut i => setIdx vOut i 0)
  transposeTo vOut v := do
    let row0 ← idx proj 0
    let vOut ← forRange 0 row0.length 1 vOut (fun vOut i => setIdx vOut i 0)
    forRange 0 proj.length 1 vOut (fun vOut i => do
      let row ← idx proj i
      forRange 0 row.length 1 vOut (fun vOut j => do
        let b ← idx row j
        if b then
          let o ← idx vOut j
          let c ← idx v i
          setIdx vOut j (o + c)
        else pure vOut))

/-- linear.go:140-180 (`projRecomposeChecker` and its methods). -/
def projRecomposeChecker [Zero F] [Add F] [Mul F] (base : List F) : LinearChecker F where
  transformTo vOut v := do
    if base.length = 0 then goPanic
    let n := vOut.length / base.length
    let vOut ← forRange 0 n 1 vOut (fun vOut i => do
      let vOut ← setIdx vOut i 0
      forRange 0 base.length 1 vOut (fun vOut j => do
        let b ← idx base j
        let c ← idx v (i * base.length + j)
        let o ← idx vOut i
        setIdx vOut i (o + b * c)))
    forRange n vOut.length 1 vOut (fun vOut i => setIdx vOut i 0)
  transposeTo vOut v := do
    if base.length = 0 then goPanic
    let n := vOut.length / base.length
    let vOut ← forRange 0 n 1 vOut (fun vOut i =>
      forRange 0 base.length 1 vOut (fun vOut j => do
        let b ← idx base j
        let c ← idx v i
        setIdx vOut (i * base.length + j) (b * c)))
    forRange (n * base.length) vOut.length 1 vOut (fun vOut i => setIdx vOut i 0)

/-- linear.go:145-154 (`newProjRecomposeChecker`); `SetBigInt` reduces into the field. -/
def newProjRecomposeChecker [NatCast F] [Zero F] [Add F] [Mul F] (bound : Nat) :
    Go (LinearChecker F) := do
  let base ← decomposeBase bound
  pure (projRecomposeChecker (base.map (fun (b : Nat) => (b : F))))

end

end Ringo
