import Verif.Model.FieldMem

/-!
# Model of the type `Vector` of the field packages

Line numbers of `buckler/internal/zp110/vector.go`; the files of the other packages differ in the number of
words only (and so in the lines after 158).

A reader is the list of the bytes that it has left, after which it reports `io.EOF`; the writer is a
`bytes.Buffer`.  Readers and writers with errors of their own are left out, and so is the memory
management (lines 121-123, 130-132, 217-219, 230-232: which array the slice is in).  The words of an element are in memory
with the least significant byte first, as on every machine with an assembly file in the packages.
-/

namespace Ringo

/-- The errors of `ReadFrom` and `AsyncReadFrom`. -/
inductive VecErr
  /-- `io.EOF`. -/
  | eof
  /-- `io.ErrUnexpectedEOF`. -/
  | unexpectedEOF
  /-- "less data than expected: read i elements, expected len". -/
  | short (i len : Nat)
  /-- "error reading element i". -/
  | noElement (i : Nat)
  /-- "error decoding element i". -/
  | badElement (i : Nat)
deriving DecidableEq

/-- What a call of `ReadFrom` leaves: the number of bytes it returns, its error, the vector, and what is left
in the reader. -/
structure VecRead where
  read : Nat
  err : Option VecErr
  vec : List (List Nat)
  rest : List UInt8

/-- `io.ReadFull(r, buf)` with a buffer of `k` bytes: the bytes read, those left, the error. -/
def readFull (r : List UInt8) (k : Nat) : List UInt8 × List UInt8 × Option VecErr :=
  (r.take k, r.drop k, if k ≤ r.length then none else if r = [] then some .eof else some .unexpectedEOF)

/-- `binary.Write(w, binary.BigEndian, uint32(v))`: the four low bytes. -/
def putBE32 (v : Nat) : List UInt8 := (List.range 4).map fun i => UInt8.ofNat (v / 2 ^ (24 - 8 * i))

/-- `binary.LittleEndian.PutUint64`; the bytes of a word in memory. -/
def putLE (v : Nat) : List UInt8 := (List.range 8).map fun i => UInt8.ofNat (v / 2 ^ (8 * i))

/-- The bytes of an element in memory. -/
def memBytes (z : List Nat) : List UInt8 := z.flatMap putLE

/-- The `n` words that have the bytes `b` in memory. -/
def memWords (n : Nat) (b : List UInt8) : List Nat := (List.range n).map fun i => FieldPkg.getLE b (8 * i)

/-- The elements of `n` words, `k` of them, at the start of the bytes `b` in memory. -/
def memElems (n : Nat) : Nat → List UInt8 → List (List Nat)
  | 0, _ => []
  | k + 1, b => memWords n b :: memElems n k (b.drop (8 * n))

/-- 359-369 (`execute`): the number of tasks; `maxCpus` are the optional arguments. -/
def executeTasks (numCPU : Nat) (maxCpus : List Int) : Nat :=
  match maxCpus with
  | [m] => if m < 1 then 1 else if 512 < m then 512 else m.toNat
  | _ => numCPU

/-- 389-403: the loop over the tasks, `k` of them from task `i` on; `work` is called with `start` and `end`. -/
def executeLoop (per : Nat) : Nat → Nat → Nat → Nat → List (Nat × Nat)
  | 0, _, _, _ => []
  | k + 1, i, extra, off =>
    let start := i * per + off
    let stop := start + per
    if 0 < extra then (start, stop + 1) :: executeLoop per k (i + 1) (extra - 1) (off + 1)
    else (start, stop) :: executeLoop per k (i + 1) extra off

/-- 371-403 (`execute`): the arguments of the calls of `work`.  `extraTasks` (387) is not negative. -/
def executeRanges (tasks iters : Nat) : List (Nat × Nat) :=
  if tasks = 1 then [(0, iters)]
  else
    let per := iters / tasks
    let pt := if per < 1 then (1, iters) else (per, tasks)
    executeLoop pt.1 pt.2 0 (iters - pt.2 * pt.1) 0

/-- A task of the goroutine of `AsyncReadFrom`: it is about to convert element `pos`, and ends at `stop`. -/
structure Worker where
  pos : Nat
  stop : Nat

/-- The vector, the counter of the errors, and the tasks. -/
structure AsyncSt where
  vec : List (List Nat)
  errs : Nat
  ws : List Worker

namespace FieldPkg

variable (P : FieldPkg)

/-- 53-71 (`WriteTo`) and 35-42 (`MarshalBinary`). -/
def vecWrite (v : List (List Nat)) : List UInt8 := putBE32 v.length ++ v.flatMap P.marshal

/-- 221-238: the loop of `ReadFrom`, `k` elements from element `i` on. -/
def vecReadLoop (len : Nat) : Nat → Nat → List UInt8 → Nat → List (List Nat) → VecRead
  | 0, _, r, total, vec => ⟨total, none, vec, r⟩
  | k + 1, i, r, total, vec =>
    let (buf, rest, err) := readFull r (8 * P.n)
    let total := total + buf.length
    if err = some .unexpectedEOF then ⟨total, some (.short i len), vec, rest⟩
    else if err ≠ none then ⟨total, some (.noElement i), vec, rest⟩
    else
      match P.element buf with
      | none => ⟨total, some (.badElement i), vec, rest⟩
      | some el => vecReadLoop len k (i + 1) rest total (vec ++ [el])

/-- 195-241 (`ReadFrom`); `old` is what `*vector` was. -/
def vecRead (old : List (List Nat)) (r : List UInt8) : VecRead :=
  let (buf, rest, err) := readFull r 4
  if err ≠ none then ⟨buf.length, err, old, rest⟩
  else P.vecReadLoop (beVal buf) (beVal buf) 0 rest 4 []

/-- 45-49 (`UnmarshalBinary`): the error and the vector. -/
def vecUnmarshal (old : List (List Nat)) (data : List UInt8) : Option VecErr × List (List Nat) :=
  ((P.vecRead old data).err, (P.vecRead old data).vec)

/-- 129-144: the loop that fills the memory of the vector, `max` elements at a time; `mem` are the bytes of the
vector so far, and a part that is not filled stays zero.  The first number is a bound on the rounds. -/
def asyncFill (max len : Nat) : Nat → Nat → List UInt8 → Nat → List UInt8 → VecRead
  | 0, _, r, total, mem => ⟨total, none, memElems P.n len mem, r⟩
  | k + 1, i, r, total, mem =>
    if i < len then
      let m := min (len - i) max
      let (buf, rest, err) := readFull r (m * (8 * P.n))
      let total := total + buf.length
      let mem' := mem ++ buf ++ List.replicate (m * (8 * P.n) - buf.length) 0
      if err = some .unexpectedEOF then
        ⟨total, some (.short (i + buf.length / (8 * P.n)) len), memElems P.n (i + m) mem', rest⟩
      else if err ≠ none then ⟨total, err, memElems P.n (i + m) mem', rest⟩
      else asyncFill max len k (i + max) rest total mem'
    else ⟨total, none, memElems P.n len mem, r⟩

/-- 97-144 (`AsyncReadFrom`), the part before the goroutine: what it returns, and the number of elements that the
goroutine converts.  `target` is `targetSize`, `2^32` or `2^30`. -/
def asyncStart (target : Nat) (old : List (List Nat)) (r : List UInt8) : VecRead × Nat :=
  let (buf, rest, err) := readFull r 4
  if err ≠ none then (⟨buf.length, err, old, rest⟩, 0)
  else
    let len := beVal buf
    if len = 0 then (⟨4, none, [], rest⟩, 0)
    else
      let v := P.asyncFill (target / (8 * P.n)) len len 0 rest 4 []
      if v.err ≠ none then (v, 0) else (v, len)

/-- 150-167: a task converts its next element.  At an invalid element it adds to the counter and returns. -/
def asyncStep (s : AsyncSt) (t : Nat) : AsyncSt :=
  match s.ws[t]? with
  | none => s
  | some w =>
    if w.pos < w.stop then
      let b := memBytes (s.vec.getD w.pos [])
      let z := (List.range P.n).map fun i => getBE b (8 * (P.n - 1 - i))
      if !P.smaller z then { s with errs := s.errs + 1, ws := s.ws.set t ⟨w.stop, w.stop⟩ }
      else ⟨s.vec.set w.pos (P.toMont z), s.errs, s.ws.set t ⟨w.pos + 1, w.stop⟩⟩
    else s

/-- 146-174: the goroutine, when the tasks take their steps in the order `sched`. -/
def asyncRun (tasks : Nat) (v : List (List Nat)) (len : Nat) (sched : List Nat) : AsyncSt :=
  sched.foldl P.asyncStep ⟨v, 0, (executeRanges tasks len).map fun r => ⟨r.1, r.2⟩⟩

end FieldPkg

/-- `wg.Wait()` (405) returns: all tasks have returned. -/
def AsyncSt.Done (s : AsyncSt) : Prop := ∀ w ∈ s.ws, w.stop ≤ w.pos

end Ringo
