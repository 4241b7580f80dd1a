import Verif.Model.Vec
import Mathlib.Data.ZMod.Basic
import Mathlib.Algebra.Field.ZMod

/-!
# Model of `math/bigpoly/ntt.go`

Vectors are lists of values.  The pointers in the slice `p` are assumed pairwise distinct
(every slice built by `NewPoly`/`make` in the library has this property), so an in-place
update of `*p[j]` is an update of list position `j`.
-/

namespace Ringo

variable {F : Type _}

/-- ntt.go:254-259 (`butterfly`): `v *= w; u += v; v += v; v = u - v`. -/
def butterfly [Add F] [Sub F] [Mul F] (u v w : F) : F × F :=
  let v := v * w
  let u := u + v
  let v := v + v
  let v := u - v
  (u, v)

/-- ntt.go:365-370 (`invButterfly`): `u += v; v += v; v = u - v; v *= w`. -/
def invButterfly [Add F] [Sub F] [Mul F] (u v w : F) : F × F :=
  let u := u + v
  let v := v + v
  let v := u - v
  let v := v * w
  (u, v)

/-- A call `butterfly(p[a], p[b], tw[w])` with bounds-checked indexing. -/
def bflyAt (bt : F → F → F → F × F) (tw : List F) (p : List F) (a b w : Nat) : Go (List F) := do
  let u ← idx p a
  let v ← idx p b
  let t ← idx tw w
  let p ← setIdx p a (bt u v t).1
  setIdx p b (bt u v t).2

/-- The same call through unsafe `*[8]E` windows into `p`; `tw` is still checked. -/
def ubflyAt (bt : F → F → F → F × F) (tw : List F) (p : List F) (a b w : Nat) : Go (List F) := do
  let u ← uidx p a
  let v ← uidx p b
  let t ← idx tw w
  let p ← usetIdx p a (bt u v t).1
  usetIdx p b (bt u v t).2

/-- The eight butterflies of ntt.go:285-293, 307-315, 435-443, 456-464: windows at `j` and
`j+t`, one twiddle. -/
def ubfly8 (bt : F → F → F → F × F) (tw : List F) (p : List F) (j t w : Nat) : Go (List F) := do
  addr p j
  addr p (j + t)
  let p ← ubflyAt bt tw p (j + 0) (j + t + 0) w
  let p ← ubflyAt bt tw p (j + 1) (j + t + 1) w
  let p ← ubflyAt bt tw p (j + 2) (j + t + 2) w
  let p ← ubflyAt bt tw p (j + 3) (j + t + 3) w
  let p ← ubflyAt bt tw p (j + 4) (j + t + 4) w
  let p ← ubflyAt bt tw p (j + 5) (j + t + 5) w
  let p ← ubflyAt bt tw p (j + 6) (j + t + 6) w
  ubflyAt bt tw p (j + 7) (j + t + 7) w

/-- The last-but-two layer, ntt.go:319-328 and 412-421 (`t = 4`, `m = N/8`). -/
def layer4 (bt : F → F → F → F × F) (tw : List F) (N : Nat) (p : List F) : Go (List F) :=
  forRange 0 (N / 8) 1 p (fun p i => do
    let j := 8 * i
    addr p j
    let p ← ubflyAt bt tw p (j + 0) (j + 4) (i + N / 8)
    let p ← ubflyAt bt tw p (j + 1) (j + 5) (i + N / 8)
    let p ← ubflyAt bt tw p (j + 2) (j + 6) (i + N / 8)
    ubflyAt bt tw p (j + 3) (j + 7) (i + N / 8))

/-- ntt.go:331-341 and 400-410 (`t = 2`, `m = N/4`). -/
def layer2 (bt : F → F → F → F × F) (tw : List F) (N : Nat) (p : List F) : Go (List F) :=
  forRange 0 (N / 4) 2 p (fun p i => do
    let j := 4 * i
    addr p j
    let p ← ubflyAt bt tw p (j + 0) (j + 2) (i + N / 4)
    let p ← ubflyAt bt tw p (j + 1) (j + 3) (i + N / 4)
    let p ← ubflyAt bt tw p (j + 4) (j + 6) (i + N / 4 + 1)
    ubflyAt bt tw p (j + 5) (j + 7) (i + N / 4 + 1))

/-- ntt.go:344-354 and 388-398 (`t = 1`, `m = N/2`). -/
def layer1 (bt : F → F → F → F × F) (tw : List F) (N : Nat) (p : List F) : Go (List F) :=
  forRange 0 (N / 2) 4 p (fun p i => do
    let j := 2 * i
    addr p j
    let p ← ubflyAt bt tw p (j + 0) (j + 1) (i + N / 2 + 0)
    let p ← ubflyAt bt tw p (j + 2) (j + 3) (i + N / 2 + 1)
    let p ← ubflyAt bt tw p (j + 4) (j + 5) (i + N / 2 + 2)
    ubflyAt bt tw p (j + 6) (j + 7) (i + N / 2 + 3))

/-- The body of one layer of the reference loops, ntt.go:267-273 and 377-383. -/
def layerRef (bt : F → F → F → F × F) (tw : List F) (p : List F) (m t : Nat) : Go (List F) :=
  forRange 0 m 1 p (fun p i => do
    let j1 := i * t * 2
    let j2 := j1 + t
    forRange j1 j2 1 p (fun p j => bflyAt bt tw p j (j + t) (m + i)))

/-- The body of one unrolled middle layer, ntt.go:298-316 and 427-444. -/
def layerUnroll (bt : F → F → F → F × F) (tw : List F) (p : List F) (m t : Nat) : Go (List F) :=
  forRange 0 m 1 p (fun p i => do
    let j1 := i * t * 2
    let j2 := j1 + t
    forRange j1 j2 8 p (fun p j => ubfly8 bt tw p j t (m + i)))

section alg
variable [Add F] [Sub F] [Mul F]

/-- ntt.go:261-275. -/
def nttInPlaceRef (p tw : List F) : Go (List F) := do
  let N := p.length
  let s ← (doublings 1 (N / 2)).foldlM (fun (s : List F × Nat) m => do
    let t := s.2 / 2
    let p ← layerRef butterfly tw s.1 m t
    pure (p, t)) (p, N)
  pure s.1

/-- ntt.go:277-355. -/
def nttInPlaceUnroll (p tw : List F) : Go (List F) := do
  let N := p.length
  let t := N / 2
  let p ← forRange 0 (N / 2) 8 p (fun p j => ubfly8 butterfly tw p j t 1)
  let s ← (doublings 2 (N / 16)).foldlM (fun (s : List F × Nat) m => do
    let t := s.2 / 2
    let p ← layerUnroll butterfly tw s.1 m t
    pure (p, t)) (p, t)
  let p ← layer4 butterfly tw N s.1
  let p ← layer2 butterfly tw N p
  layer1 butterfly tw N p

/-- ntt.go:246-252. -/
def nttInPlace (p tw : List F) : Go (List F) :=
  if p.length < 32 then nttInPlaceRef p tw else nttInPlaceUnroll p tw

/-- ntt.go:372-386. -/
def inttInPlaceRef (p twInv : List F) : Go (List F) := do
  let N := p.length
  let s ← (halvings (N / 2) 1).foldlM (fun (s : List F × Nat) m => do
    let p ← layerRef invButterfly twInv s.1 m s.2
    pure (p, s.2 * 2)) (p, 1)
  pure s.1

/-- ntt.go:388-466. -/
def inttInPlaceUnroll (p twInv : List F) : Go (List F) := do
  let N := p.length
  let p ← layer1 invButterfly twInv N p
  let p ← layer2 invButterfly twInv N p
  let p ← layer4 invButterfly twInv N p
  let s ← (halvings (N / 16) 2).foldlM (fun (s : List F × Nat) m => do
    let p ← layerUnroll invButterfly twInv s.1 m s.2
    pure (p, s.2 * 2)) (p, 8)
  let t := s.2
  forRange 0 (N / 2) 8 s.1 (fun p j => ubfly8 invButterfly twInv p j t 1)

/-- ntt.go:357-363. -/
def inttInPlace (p twInv : List F) : Go (List F) :=
  if p.length < 32 then inttInPlaceRef p twInv else inttInPlaceUnroll p twInv

end alg

/-- The eight-wide copy loops of ntt.go:98-112, 118-132, 206-220, 226-240, and of
poly.go:36-48 and 58-70: the loop runs while `i < len(out)` in steps of eight and writes eight
elements through unsafe windows each time. -/
def copy8 (out v : List F) : Go (List F) :=
  forRange 0 out.length 8 out (fun out i => do
    addr out i
    addr v i
    [0, 1, 2, 3, 4, 5, 6, 7].foldlM (fun out k => do
      let x ← uidx v (i + k)
      usetIdx out (i + k) x) out)

/-- The fields of `CyclicTransformer` / `CyclotomicTransformer` (ntt.go:17-23, 144-150). -/
structure Transformer (F : Type _) where
  rank : Nat
  tw : List F
  twInv : List F
  rankInv : F

/-- ntt.go:98-115 and 206-223. -/
def Transformer.fwdNTTTo [Add F] [Sub F] [Mul F] (T : Transformer F) (vOut v : List F) :
    Go (List F) := do
  let vOut ← copy8 vOut v
  nttInPlace vOut T.tw

/-- ntt.go:118-136 and 226-244.  The final `scalarMulVecTo(vOut, vOut, rankInv)` is taken at
the value level; `Verif.Proof.Vec` proves that the heap version computes exactly this. -/
def Transformer.invNTTTo [Add F] [Sub F] [Mul F] (T : Transformer F) (vOut v : List F) :
    Go (List F) := do
  let vOut ← copy8 vOut v
  let vOut ← inttInPlace vOut T.twInv
  pure (vOut.map (· * T.rankInv))

/-- The root search of ntt.go:46-54 and 174-182: the first `x ≥ 2`, `x < p`, for which
`(x^t1 mod p)^t2 mod p ≠ 1` gives the root `x^t1 mod p`; if there is none the element stays
zero. -/
def rootSearch (p t1 t2 x : Nat) : Nat :=
  if x < p then
    let g := x ^ t1 % p
    if g ^ t2 % p ≠ 1 then g else rootSearch p t1 t2 (x + 1)
  else 0
  termination_by p - x

/-- `v[i] = v[i-1]*g` for `1 ≤ i < n`, starting from `v[0] = 1`: ntt.go:57-64 and 185-192.
`make([]E, n)` followed by `v[0] = ...` panics when `n = 0`. -/
def powersOf [One F] [Mul F] (g : F) (n : Nat) : Go (List F) := do
  let v := List.replicate n (1 : F)
  addr v 0
  forRange 1 n 1 v (fun v i => do
    let a ← idx v (i - 1)
    setIdx v i (a * g))

/-- ntt.go:26-95 (`NewCyclicTransformer`), over a prime field of `p` elements.  `tw[0]`
(nil in Go, never read) is represented by `0`. -/
def newCyclicTransformer (p : Nat) [Fact p.Prime] (rank : Nat) : Go (Transformer (ZMod p)) := do
  if !isPowerOfTwo rank then goPanic
  else if (p - 1) % (2 * rank) ≠ 0 then goPanic
  else
    let g : ZMod p := (rootSearch p ((p - 1) / rank) (rank / 2) 2 : Nat)
    let gInv := g⁻¹
    let twRef ← powersOf g (rank / 2)
    let twInvRef ← powersOf gInv (rank / 2)
    let twRef ← bitReverseInPlace twRef
    let twInvRef ← bitReverseInPlace twInvRef
    let tw ← (doublings 1 (rank / 2)).foldlM (fun tw m =>
      forRange 0 m 1 tw (fun tw i => do
        let a ← idx twRef i
        setIdx tw (m + i) a)) (List.replicate rank 0)
    let twInv ← (halvings (rank / 2) 1).foldlM (fun tw m =>
      forRange 0 m 1 tw (fun tw i => do
        let a ← idx twInvRef i
        setIdx tw (m + i) a)) (List.replicate rank 0)
    pure ⟨rank, tw, twInv, (rank : ZMod p)⁻¹⟩

/-- ntt.go:153-203 (`NewCyclotomicTransformer`). -/
def newCyclotomicTransformer (p : Nat) [Fact p.Prime] (rank : Nat) :
    Go (Transformer (ZMod p)) := do
  if !isPowerOfTwo rank then goPanic
  else if (p - 1) % (2 * rank) ≠ 0 then goPanic
  else
    let g : ZMod p := (rootSearch p ((p - 1) / (2 * rank)) rank 2 : Nat)
    let gInv := g⁻¹
    let tw ← powersOf g rank
    let twInv ← powersOf gInv rank
    let tw ← bitReverseInPlace tw
    let twInv ← bitReverseInPlace twInv
    pure ⟨rank, tw, twInv, (rank : ZMod p)⁻¹⟩

end Ringo
