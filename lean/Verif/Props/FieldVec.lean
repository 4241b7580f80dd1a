import Verif.Proof.FieldVecFill
import Verif.Model.FieldPkgs
import Verif.Props.Field

/-!
# C110: vectors of field elements as bytes

`WriteTo`/`MarshalBinary`, `ReadFrom`/`UnmarshalBinary`, `AsyncReadFrom` and `execute` of vector.go, in all
seven field packages (`P.Good` is C79).
-/

namespace Ringo

open FieldPkg

variable {P : FieldPkg}

/-- **C110**, `MarshalBinary` of a vector of fewer than `2^32` elements. -/
theorem C110_write (h : P.Good) {w : List (List Nat)} {l : List (ZMod P.p)} (hw : VecForm P.p P.n w l)
    (hl : l.length < 2 ^ 32) : VecBytes P.p P.n l (P.vecWrite w) := by
  refine ⟨putBE32 w.length, w.map P.marshal, ?_, putBE32_length _, ?_, vecWrite_body h hw⟩
  · rw [vecWrite, List.flatMap_def]
  · rw [← beVal_eq_bigEndian, putBE32_val, hw.length_eq, Nat.mod_eq_of_lt hl]

/-- **C110**, `ReadFrom`: it succeeds exactly if the reader begins with an encoding of a vector; then it gives
that vector, takes the bytes of the encoding and no others, and says how many these are. -/
theorem C110_read (h : P.Good) (old : List (List Nat)) :
    (∀ (l : List (ZMod P.p)) (e rest : List UInt8), VecBytes P.p P.n l e →
      (P.vecRead old (e ++ rest)).err = none ∧ VecForm P.p P.n (P.vecRead old (e ++ rest)).vec l ∧
        (P.vecRead old (e ++ rest)).read = e.length ∧ (P.vecRead old (e ++ rest)).rest = rest) ∧
    ∀ r : List UInt8, (P.vecRead old r).err = none →
      ∃ (l : List (ZMod P.p)) (e rest : List UInt8), VecBytes P.p P.n l e ∧ r = e ++ rest := by
  refine ⟨fun l e rest he => ?_, fun r hr => vecRead_only h old hr⟩
  obtain ⟨w, h1, h2⟩ := vecRead_ok h old he rest
  rw [h2]
  exact ⟨rfl, h1, rfl, rfl⟩

theorem vecForm_unique (h : P.Good) {w v : List (List Nat)} {l : List (ZMod P.p)} (hw : VecForm P.p P.n w l)
    (hv : VecForm P.p P.n v l) : w = v := by
  induction hw generalizing v with
  | nil => cases hv; rfl
  | cons h1 _ ih =>
    cases hv with
    | cons h2 hv => rw [ih hv, (MontForm_inj h h1 h2).2 rfl]

/-- **C110**, round trip.  What `UnmarshalBinary` reads from `MarshalBinary` of a vector of any length is the
first `len mod 2^32` elements, without an error. -/
theorem C110_roundTrip (h : P.Good) (old : List (List Nat)) {w : List (List Nat)} {l : List (ZMod P.p)}
    (hw : VecForm P.p P.n w l) :
    P.vecUnmarshal old (P.vecWrite w) = (none, w.take (l.length % 2 ^ 32)) := by
  have hk : l.length % 2 ^ 32 ≤ l.length := Nat.mod_le _ _
  have hw' : VecForm P.p P.n (w.take (l.length % 2 ^ 32)) (l.take (l.length % 2 ^ 32)) :=
    List.forall₂_take _ hw
  have hlen : (l.take (l.length % 2 ^ 32)).length = l.length % 2 ^ 32 := by
    rw [List.length_take, Nat.min_eq_left hk]
  have hb := C110_write h hw' (by rw [hlen]; exact Nat.mod_lt _ (by norm_num))
  have he : P.vecWrite w = P.vecWrite (w.take (l.length % 2 ^ 32)) ++
      (w.drop (l.length % 2 ^ 32)).flatMap P.marshal := by
    rw [vecWrite, vecWrite, List.append_assoc, ← List.flatMap_append, List.take_append_drop, hw'.length_eq, hlen,
      hw.length_eq, putBE32_mod]
  obtain ⟨v, h1, h2⟩ := vecRead_ok h old hb ((w.drop (l.length % 2 ^ 32)).flatMap P.marshal)
  rw [← he] at h2
  rw [vecUnmarshal, h2, vecForm_unique h h1 hw']

/-- **C110**, the parts of `execute`: they are consecutive and cover every iteration once, there are at most as
many as tasks, and their sizes differ by at most one. -/
theorem C110_execute {tasks : Nat} (ht : 1 ≤ tasks) (n : Nat) :
    (executeRanges tasks n).flatMap (fun r => List.range' r.1 (r.2 - r.1)) = List.range n ∧
    (executeRanges tasks n).length ≤ tasks ∧
    ∀ r ∈ executeRanges tasks n, r.2 - r.1 = n / (executeRanges tasks n).length ∨
      r.2 - r.1 = n / (executeRanges tasks n).length + 1 := by
  refine ⟨executeRanges_flat ht n, ?_⟩
  unfold executeRanges
  split
  · rename_i h1
    subst h1
    refine ⟨le_rfl, fun r hr => ?_⟩
    rw [List.mem_singleton.1 hr]
    simp
  · dsimp only
    by_cases hp : n / tasks < 1
    · rw [if_pos hp]
      have hlt : n < tasks := by
        by_contra hx
        have := Nat.div_pos (not_lt.1 hx) ht
        omega
      obtain ⟨s1, s2⟩ := executeLoop_size 1 n 0 (n - n * 1) 0
      refine ⟨by rw [s1]; omega, fun r hr => ?_⟩
      rw [s1]
      have hn : 0 < n := by
        have := List.length_pos_of_mem hr
        rw [s1] at this
        exact this
      rw [Nat.div_self hn]
      rcases s2 r hr with h | h <;> omega
    · rw [if_neg hp]
      obtain ⟨s1, s2⟩ := executeLoop_size (n / tasks) tasks 0 (n - tasks * (n / tasks)) 0
      refine ⟨by rw [s1], fun r hr => ?_⟩
      rw [s1]
      rcases s2 r hr with h | h <;> omega

/-- **C110**, `AsyncReadFrom` agrees with `ReadFrom`, for every number of processors and every order in which the
tasks take their steps: it succeeds (no error returned, none on the channel) exactly if `ReadFrom` does, and
then it leaves the same vector, returns the same count, and leaves the reader at the same place. -/
theorem C110_async (h : P.Good) {target tasks : Nat} (ht : 1 ≤ tasks) (hg : target = 2 ^ 32 ∨ target = 2 ^ 30)
    (hn : P.n ≤ 14) (old : List (List Nat)) (r : List UInt8) (sched : List Nat)
    (hd : (P.asyncRun tasks (P.asyncStart target old r).1.vec (P.asyncStart target old r).2 sched).Done) :
    ((P.asyncStart target old r).1.err = none ∧
      (P.asyncRun tasks (P.asyncStart target old r).1.vec (P.asyncStart target old r).2 sched).errs = 0 ↔
      (P.vecRead old r).err = none) ∧
    ((P.vecRead old r).err = none →
      (P.asyncRun tasks (P.asyncStart target old r).1.vec (P.asyncStart target old r).2 sched).vec =
        (P.vecRead old r).vec ∧
      (P.asyncStart target old r).1.read = (P.vecRead old r).read ∧
      (P.asyncStart target old r).1.rest = (P.vecRead old r).rest) := by
  have hg : 8 * P.n ≤ target := by rcases hg with rfl | rfl <;> norm_num <;> omega
  have key : (P.vecRead old r).err = none →
      ((P.asyncStart target old r).1.err = none ∧
        (P.asyncRun tasks (P.asyncStart target old r).1.vec (P.asyncStart target old r).2 sched).errs = 0) ∧
      (P.asyncRun tasks (P.asyncStart target old r).1.vec (P.asyncStart target old r).2 sched).vec =
        (P.vecRead old r).vec ∧
      (P.asyncStart target old r).1.read = (P.vecRead old r).read ∧
      (P.asyncStart target old r).1.rest = (P.vecRead old r).rest := by
    intro hr
    obtain ⟨l, e, rest, he, rfl⟩ := vecRead_only h old hr
    obtain ⟨w, h1, h2⟩ := vecRead_ok h old he rest
    obtain ⟨a1, a2, a3, a4, a5⟩ := async_ok h ht hg old he rest sched hd
    rw [h2]
    exact ⟨⟨a2, a4⟩, vecForm_unique h a5 h1, a1, a3⟩
  refine ⟨⟨fun hx => ?_, fun hr => (key hr).1⟩, fun hr => (key hr).2⟩
  obtain ⟨l, e, rest, he, rfl⟩ := async_only h ht hg old sched hd hx.1 hx.2
  obtain ⟨w, -, h2⟩ := vecRead_ok h old he rest
  rw [h2]

/-- **C110**, a schedule that finishes exists. -/
theorem C110_async_ends (P : FieldPkg) (tasks n : Nat) (v : List (List Nat)) :
    ∃ sched, (P.asyncRun tasks v n sched).Done := by
  have key : ∀ (m : Nat) (s : AsyncSt), (s.ws.map fun w => w.stop - w.pos).sum ≤ m →
      ∃ sched : List Nat, (sched.foldl P.asyncStep s).Done := by
    intro m
    induction m with
    | zero =>
      intro s hs
      refine ⟨[], fun w hw => ?_⟩
      have hm : w.stop - w.pos ∈ s.ws.map fun w => w.stop - w.pos := List.mem_map.2 ⟨w, hw, rfl⟩
      have := List.single_le_sum (fun _ _ => Nat.zero_le _) (w.stop - w.pos) hm
      omega
    | succ m ih =>
      intro s hs
      by_cases hd : s.Done
      · exact ⟨[], hd⟩
      · simp only [AsyncSt.Done, not_forall, not_le] at hd
        obtain ⟨w, hw, hlt⟩ := hd
        obtain ⟨t, ht, htw⟩ := List.getElem_of_mem hw
        have hget : s.ws[t]? = some w := List.getElem?_eq_some_iff.2 ⟨ht, htw⟩
        have hsum : ∀ x : Worker, x.stop - x.pos < w.stop - w.pos →
            ((s.ws.set t x).map fun w => w.stop - w.pos).sum < (s.ws.map fun w => w.stop - w.pos).sum := by
          intro x hx
          rw [List.map_set, List.sum_set]
          have e : (s.ws.map fun w => w.stop - w.pos) = (s.ws.map fun w => w.stop - w.pos).set t (w.stop - w.pos) := by
            rw [← List.map_set, ← htw, List.set_getElem_self]
          conv_rhs => rw [e, List.sum_set]
          simp only [List.length_map, ht, if_true]
          omega
        have hlt' : ((P.asyncStep s t).ws.map fun w => w.stop - w.pos).sum ≤ m := by
          unfold asyncStep
          rw [hget]
          dsimp only
          rw [if_pos hlt]
          split
          · have := hsum ⟨w.stop, w.stop⟩ (by simp; omega)
            dsimp only
            omega
          · have := hsum ⟨w.pos + 1, w.stop⟩ (by simp; omega)
            dsimp only
            omega
        obtain ⟨sched, hx⟩ := ih _ hlt'
        exact ⟨t :: sched, hx⟩
  exact key _ _ le_rfl

/-- **C110**, the error of `AsyncReadFrom` counts tasks, not elements: the number on the channel is the number of
parts that contain an invalid element, and an element is converted exactly if there is no invalid one up to it
in its part; the others are left as the bytes that were read. -/
theorem C110_async_errors {tasks n : Nat} (ht : 1 ≤ tasks) {v : List (List Nat)} (hv : v.length = n)
    (sched : List Nat) (hd : (P.asyncRun tasks v n sched).Done) :
    (P.asyncRun tasks v n sched).errs =
      ((executeRanges tasks n).filter fun r => (List.range' r.1 (r.2 - r.1)).any fun i =>
        (P.element (memBytes (v.getD i []))).isNone).length ∧
    ∀ r ∈ executeRanges tasks n, ∀ i, r.1 ≤ i → i < r.2 →
      (P.asyncRun tasks v n sched).vec.getD i [] =
        if (List.range' r.1 (i + 1 - r.1)).all fun j => (P.element (memBytes (v.getD j []))).isSome then
          (P.element (memBytes (v.getD i []))).getD [] else v.getD i [] := by
  have he : ∀ c, P.element (memBytes c) = if P.smaller (P.cellZ c) then some (P.toMont (P.cellZ c)) else none :=
    fun c => element_smaller
  have h1 : ∀ c, (P.element (memBytes c)).isNone = !P.smaller (P.cellZ c) := by
    intro c; rw [he]; cases P.smaller (P.cellZ c) <;> rfl
  have h2 : ∀ c, (P.element (memBytes c)).isSome = P.smaller (P.cellZ c) := by
    intro c; rw [he]; cases P.smaller (P.cellZ c) <;> rfl
  obtain ⟨_, _, k3, k4⟩ := asyncRun_done (P := P) ht hv sched hd
  simp only [h1, h2]
  refine ⟨k3, fun r hr i hi1 hi2 => ?_⟩
  rw [k4 r hr i hi1 hi2]
  split
  · rename_i hall
    have := List.all_eq_true.1 hall i (List.mem_range'_1.2 ⟨hi1, by omega⟩)
    rw [he, if_pos this]
    rfl
  · rfl

/-! ### Cases -/

/-- Ten elements for four tasks. -/
example : executeRanges 4 10 = [(0, 3), (3, 6), (6, 8), (8, 10)] := by decide

/-- The vector `[5, -1]` of `zp880`, its encoding, and what is read back. -/
theorem C110_case : ∃ w : List (List Nat),
    VecForm zp880Pkg.p zp880Pkg.n w [5, -1] ∧ VecBytes zp880Pkg.p zp880Pkg.n [5, -1] (zp880Pkg.vecWrite w) ∧
    zp880Pkg.vecUnmarshal [] (zp880Pkg.vecWrite w) = (none, w) ∧
    ∃ sched, (zp880Pkg.asyncRun 4 (zp880Pkg.asyncStart (2 ^ 32) [] (zp880Pkg.vecWrite w)).1.vec
      (zp880Pkg.asyncStart (2 ^ 32) [] (zp880Pkg.vecWrite w)).2 sched).Done := by
  have h := C79_zp880.1
  have hw : VecForm zp880Pkg.p zp880Pkg.n [zp880Pkg.setBigInt 5, zp880Pkg.setBigInt (-1)] [5, -1] := by
    refine List.Forall₂.cons ?_ (List.Forall₂.cons ?_ List.Forall₂.nil)
    · simpa using C71_setBigInt h 5
    · simpa using C71_setBigInt h (-1)
  refine ⟨_, hw, C110_write h hw (by norm_num), ?_, C110_async_ends _ _ _ _⟩
  rw [C110_roundTrip h [] hw]
  norm_num

end Ringo
