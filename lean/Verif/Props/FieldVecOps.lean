import Verif.Proof.AsmVec
import Verif.Model.FieldPkgs
import Verif.Props.Field

/-!
# C111: arithmetic of vectors of field elements

The loops of vector.go in memory, for slices that may overlap, and the assembly loops `addVec`, `subVec` of the
two packages with a vector_amd64.go.
-/

namespace Ringo

open FieldPkg

variable {P : FieldPkg}

/-- The slice `res` does not begin strictly inside the slice `a` (a loop that goes up does not write an element of
`a` before reading it). -/
def NotAhead (P : FieldPkg) (res a : Slice) : Prop := res.ptr ≤ a.ptr ∨ a.ptr + 8 * P.n * a.len ≤ res.ptr

/-- In the memory `m` the slice `a` holds the residues `x`. -/
def Holds (P : FieldPkg) (m : Mem) (a : Slice) (x : Nat → ZMod P.p) : Prop :=
  ∀ i < a.len, MontForm P.p P.n (m (a.ptr + 8 * P.n * i)) (x i)

/-- The slice consists of elements. -/
def Elems (P : FieldPkg) (m : Mem) (a : Slice) : Prop := ∀ i < a.len, (m (a.ptr + 8 * P.n * i)).length = P.n

/-- Outside the slice the memories agree. -/
def SameBut (P : FieldPkg) (a : Slice) (m m' : Mem) : Prop :=
  ∀ p, (∀ i < a.len, p ≠ a.ptr + 8 * P.n * i) → m' p = m p

theorem NotAhead.ne {res a : Slice} (h2 : 2 ≤ P.n) (h : NotAhead P res a) :
    ∀ i j, i < j → j < a.len → P.elemPtr res.ptr i ≠ P.elemPtr a.ptr j := by
  intro i j hij hj he
  unfold elemPtr at he
  rcases h with h | h
  · have : 8 * P.n * i < 8 * P.n * j := Nat.mul_lt_mul_of_pos_left hij (by omega)
    omega
  · have : 8 * P.n * j < 8 * P.n * a.len := Nat.mul_lt_mul_of_pos_left hj (by omega)
    omega

theorem vecOp_spec (h : P.Good) {op : Mem → Nat → Nat → Nat → Mem} {f : ZMod P.p → ZMod P.p → ZMod P.p}
    (hop : ∀ (m : Mem) (z x y : Nat) (a b : ZMod P.p), (m z).length = P.n → MontForm P.p P.n (m x) a →
      MontForm P.p P.n (m y) b → ∃ w, MontForm P.p P.n w (f a b) ∧ op m z x y = Function.update m z w)
    {res a b : Slice} (hb : a.len = b.len) (hr : a.len = res.len) {m : Mem} {x y : Nat → ZMod P.p}
    (hm : Elems P m res) (ha : Holds P m a x) (hy : Holds P m b y) (pa : NotAhead P res a) (pb : NotAhead P res b) :
    ∃ m', P.vecOp op m res a b = some m' ∧ Holds P m' res (fun i => f (x i) (y i)) ∧ SameBut P res m m' := by
  refine ⟨_, if_neg (by simp [← hb, ← hr]), ?_⟩
  obtain ⟨k1, k2⟩ := vecLoop_spec (P := P) h.two_le (op := op) (res := res.ptr) (a := a.ptr) (b := b.ptr)
    (len := a.len) (A := fun i w => MontForm P.p P.n w (x i)) (B := fun i w => MontForm P.p P.n w (y i))
    (C := fun i w => MontForm P.p P.n w (f (x i) (y i))) (fun m z x' y' i hz hx hy => hop m z x' y' _ _ hz hx hy)
    (pa.ne h.two_le) (hb ▸ pb.ne h.two_le) a.len 0 m (by omega)
    (fun j _ hj => ⟨hm j (by omega), ha j hj, hy j (by omega)⟩)
  exact ⟨fun i hi => k1 i (Nat.zero_le _) (by omega), fun p hp => k2 p fun j _ hj => hp j (by omega)⟩

/-! ### The portable code -/

/-- **C111**, `Add`: element by element, also in place, and nothing outside the result changes. -/
theorem C111_add (h : P.Good) {res a b : Slice} (hb : a.len = b.len) (hr : a.len = res.len) {m : Mem}
    {x y : Nat → ZMod P.p} (hm : Elems P m res) (ha : Holds P m a x) (hy : Holds P m b y) (pa : NotAhead P res a)
    (pb : NotAhead P res b) :
    ∃ m', P.vecAdd m res a b = some m' ∧ Holds P m' res (fun i => x i + y i) ∧ SameBut P res m m' :=
  vecOp_spec h (fun m z x y _ _ hz hx hy => addAt_mont h m z x y hz hx hy) hb hr hm ha hy pa pb

/-- **C111**, `Sub`. -/
theorem C111_sub (h : P.Good) {res a b : Slice} (hb : a.len = b.len) (hr : a.len = res.len) {m : Mem}
    {x y : Nat → ZMod P.p} (hm : Elems P m res) (ha : Holds P m a x) (hy : Holds P m b y) (pa : NotAhead P res a)
    (pb : NotAhead P res b) :
    ∃ m', P.vecSub m res a b = some m' ∧ Holds P m' res (fun i => x i - y i) ∧ SameBut P res m m' :=
  vecOp_spec h (fun m z x y _ _ hz hx hy => subAt_mont h m z x y hz hx hy) hb hr hm ha hy pa pb

/-- **C111**, `Mul`. -/
theorem C111_mul (h : P.Good) {res a b : Slice} (hb : a.len = b.len) (hr : a.len = res.len) {m : Mem}
    {x y : Nat → ZMod P.p} (hm : Elems P m res) (ha : Holds P m a x) (hy : Holds P m b y) (pa : NotAhead P res a)
    (pb : NotAhead P res b) :
    ∃ m', P.vecMul m res a b = some m' ∧ Holds P m' res (fun i => x i * y i) ∧ SameBut P res m m' :=
  vecOp_spec h (fun m z x y _ _ hz hx hy => mulAt_mont h m z x y hz hx hy) hb hr hm ha hy pa pb

theorem scalarLoop_spec (h : P.Good) {res a b len : Nat} {x : Nat → ZMod P.p} {c : ZMod P.p}
    (ha : ∀ i j, i < j → j < len → P.elemPtr res i ≠ P.elemPtr a j)
    (hb : ∀ i, i + 1 < len → b ≠ P.elemPtr res i) :
    ∀ (k i : Nat) (m : Mem), i + k = len → (0 < k → MontForm P.p P.n (m b) c) →
      (∀ j, i ≤ j → j < len → (m (P.elemPtr res j)).length = P.n ∧ MontForm P.p P.n (m (P.elemPtr a j)) (x j)) →
      (∀ j, i ≤ j → j < len → MontForm P.p P.n (P.scalarLoop res a b k i m (P.elemPtr res j)) (x j * c)) ∧
      ∀ p, (∀ j, i ≤ j → j < len → p ≠ P.elemPtr res j) → P.scalarLoop res a b k i m p = m p := by
  intro k
  induction k with
  | zero => intro i m hi _ _; exact ⟨fun j h1 h3 => absurd h3 (by omega), fun p _ => rfl⟩
  | succ k ih =>
    intro i m hi hc hm
    obtain ⟨l0, a0⟩ := hm i le_rfl (by omega)
    obtain ⟨w, hw, e⟩ := mulAt_mont h m (P.elemPtr res i) (P.elemPtr a i) b l0 a0 (hc (by omega))
    rw [scalarLoop, e]
    obtain ⟨i1, i2⟩ := ih (i + 1) (Function.update m (P.elemPtr res i) w) (by omega) (by
      intro hk
      rw [Function.update_of_ne (hb i (by omega))]
      exact hc (by omega)) (by
      intro j h1 h3
      obtain ⟨l1, a1⟩ := hm j (by omega) h3
      rw [Function.update_of_ne (fun hx => absurd (elemPtr_inj h.two_le hx) (by omega)),
        Function.update_of_ne (ha i j (by omega) h3).symm]
      exact ⟨l1, a1⟩)
    refine ⟨fun j h1 h3 => ?_, fun p hp => ?_⟩
    · rcases Nat.eq_or_lt_of_le h1 with rfl | h1
      · rw [i2 _ fun j h1 _ hx => absurd (elemPtr_inj h.two_le hx) (by omega), Function.update_self]
        exact hw
      · exact i1 j h1 h3
    · rw [i2 p fun j h1 h3 => hp j (by omega) h3, Function.update_of_ne (hp i le_rfl (by omega))]

/-- **C111**, `ScalarMul`, if the scalar is not an element of the result (other than its last). -/
theorem C111_scalarMul (h : P.Good) {res a : Slice} {b : Nat} (hr : a.len = res.len) {m : Mem}
    {x : Nat → ZMod P.p} {c : ZMod P.p} (hm : Elems P m res) (ha : Holds P m a x) (hb : MontForm P.p P.n (m b) c)
    (pa : NotAhead P res a) (pb : ∀ i, i + 1 < res.len → b ≠ res.ptr + 8 * P.n * i) :
    ∃ m', P.vecScalarMul m res a b = some m' ∧ Holds P m' res (fun i => x i * c) ∧ SameBut P res m m' := by
  refine ⟨_, if_neg (by simp [← hr]), ?_⟩
  obtain ⟨k1, k2⟩ := scalarLoop_spec h (x := x) (c := c) (pa.ne h.two_le) (b := b)
    (fun i hi => pb i (by omega)) a.len 0 m (by omega) (fun _ => hb) (fun j _ hj => ⟨hm j (by omega), ha j hj⟩)
  exact ⟨fun i hi => k1 i (Nat.zero_le _) (by omega), fun p hp => k2 p fun j _ hj => hp j (by omega)⟩

/-- **C111**, lengths: the operations panic exactly if the lengths differ. -/
theorem C111_length (P : FieldPkg) (m : Mem) (res a b : Slice) (c : Nat) :
    (P.vecAdd m res a b = none ↔ ¬(a.len = b.len ∧ a.len = res.len)) ∧
    (P.vecSub m res a b = none ↔ ¬(a.len = b.len ∧ a.len = res.len)) ∧
    (P.vecMul m res a b = none ↔ ¬(a.len = b.len ∧ a.len = res.len)) ∧
    (P.vecScalarMul m res a c = none ↔ a.len ≠ res.len) ∧
    (P.vecInner m a b = none ↔ a.len ≠ b.len) := by
  have key : ∀ op, P.vecOp op m res a b = none ↔ ¬(a.len = b.len ∧ a.len = res.len) := by
    intro op
    unfold vecOp
    split_ifs with hc <;> simp only [true_iff, false_iff] <;> tauto
  refine ⟨key _, key _, key _, ?_, ?_⟩
  · unfold vecScalarMul; split_ifs <;> simp_all
  · unfold vecInner; split_ifs <;> simp_all

theorem foldl_mont (h : P.Good) (f : Nat → List Nat) (x : Nat → ZMod P.p) : ∀ k : Nat,
    (∀ i < k, MontForm P.p P.n (f i) (x i)) →
    MontForm P.p P.n ((List.range k).foldl (fun r i => P.add r (f i)) (List.replicate P.n 0))
      (∑ i ∈ Finset.range k, x i)
  | 0, _ => by simpa using mont_zero h
  | k + 1, hf => by
    rw [List.range_succ, List.foldl_append, Finset.sum_range_succ]
    exact mont_add h (foldl_mont h f x k fun i hi => hf i (by omega)) (hf k (by omega))

/-- **C111**, `Sum`. -/
theorem C111_sum (h : P.Good) {m : Mem} {a : Slice} {x : Nat → ZMod P.p} (ha : Holds P m a x) :
    MontForm P.p P.n (P.vecSum m a) (∑ i ∈ Finset.range a.len, x i) :=
  foldl_mont h _ x a.len fun i hi => ha i hi

/-- **C111**, `InnerProduct`. -/
theorem C111_inner (h : P.Good) {m : Mem} {a b : Slice} (hb : a.len = b.len) {x y : Nat → ZMod P.p}
    (ha : Holds P m a x) (hy : Holds P m b y) :
    ∃ r, P.vecInner m a b = some r ∧ MontForm P.p P.n r (∑ i ∈ Finset.range a.len, x i * y i) :=
  ⟨_, if_neg (by simp [hb]), foldl_mont h _ (fun i => x i * y i) a.len fun i hi =>
    mont_mul' h (ha i hi) (hy i (by omega))⟩

/-- **C111**, `Less`: the order of the residues in `[0, p)`. -/
theorem C111_less (h : P.Good) {m : Mem} {v : Slice} {x : Nat → ZMod P.p} (hv : Holds P m v x) {i j : Nat}
    (hi : i < v.len) (hj : j < v.len) : P.vecLess m v i j = true ↔ (x i).val < (x j).val := by
  unfold vecLess
  rw [show P.elemPtr v.ptr i = v.ptr + 8 * P.n * i from rfl, show P.elemPtr v.ptr j = v.ptr + 8 * P.n * j from rfl,
    C73 h (hv i hi) (hv j hj)]
  split_ifs <;> simp_all

/-- **C111**, `Swap`. -/
theorem C111_swap (h : P.Good) {m : Mem} {v : Slice} {x : Nat → ZMod P.p} (hv : Holds P m v x) {i j : Nat}
    (hi : i < v.len) (hj : j < v.len) :
    Holds P (P.vecSwap m v i j) v (x ∘ Equiv.swap i j) ∧ SameBut P v m (P.vecSwap m v i j) := by
  have ne : ∀ {s t : Nat}, s ≠ t → P.elemPtr v.ptr s ≠ P.elemPtr v.ptr t :=
    fun hst he => hst (elemPtr_inj h.two_le he)
  refine ⟨fun k hk => ?_, fun p hp => ?_⟩
  · show MontForm P.p P.n (P.vecSwap m v i j (P.elemPtr v.ptr k)) (x (Equiv.swap i j k))
    unfold vecSwap
    by_cases h1 : k = j
    · subst h1
      rw [Function.update_self, Equiv.swap_apply_right]
      exact hv i hi
    · rw [Function.update_of_ne (ne h1)]
      by_cases h2 : k = i
      · subst h2
        rw [Function.update_self, Equiv.swap_apply_left]
        exact hv j hj
      · rw [Function.update_of_ne (ne h2), Equiv.swap_apply_of_ne_of_ne h2 h1]
        exact hv k hk
  · unfold vecSwap
    exact (Function.update_of_ne (hp j hj) _ _).trans (Function.update_of_ne (hp i hi) _ _)

/-- **C111**, `Equal`. -/
theorem C111_equal (h : P.Good) {m : Mem} {v w : Slice} {x y : Nat → ZMod P.p} (hv : Holds P m v x)
    (hw : Holds P m w y) : P.vecEqual m v w = true ↔ v.len = w.len ∧ ∀ i < v.len, x i = y i := by
  unfold vecEqual
  simp only [Bool.and_eq_true, beq_iff_eq, List.all_eq_true, List.mem_range]
  refine and_congr_right fun hl => forall_congr' fun i => forall_congr' fun hi => ?_
  exact MontForm_inj h (hv i hi) (hw i (by omega))

/-! ### Where the portable code fails -/

/-- A memory of residues. -/
def intMem (P : FieldPkg) (v : Nat → Int) : Mem := fun p => P.setBigInt (v p)

theorem intMem_form (h : P.Good) (v : Nat → Int) (p : Nat) : MontForm P.p P.n (intMem P v p) (v p : ZMod P.p) :=
  mont_setBigInt h _

/-- **C111** without the condition on the placement is false: a result that begins at the second element of an
operand spoils the operand while it is being read (for `[1, 5] + [0, 0]` the sum comes out as `[1, 1]`). -/
theorem C111_overlap_refuted (h : P.Good) (hp : 4 < P.p) : ∃ (m : Mem) (res a b : Slice) (x y : Nat → ZMod P.p),
    a.len = 2 ∧ b.len = 2 ∧ res.len = 2 ∧ (∀ p, (m p).length = P.n) ∧ Holds P m a x ∧ Holds P m b y ∧
    ∃ m', P.vecAdd m res a b = some m' ∧ ¬ MontForm P.p P.n (m' (res.ptr + 8 * P.n * 1)) (x 1 + y 1) := by
  have h2 := h.two_le
  set v : Nat → Int := fun p => if p = 0 then 1 else if p = 8 * P.n then 5 else 0 with hv
  refine ⟨intMem P v, ⟨8 * P.n, 2⟩, ⟨0, 2⟩, ⟨80 * P.n, 2⟩, fun i => if i = 0 then 1 else 5, fun _ => 0, rfl, rfl, rfl,
    fun p => (intMem_form h v p).len, ?_, ?_,
    P.vecLoop P.addAt (8 * P.n) 0 (80 * P.n) 2 0 (intMem P v), rfl, ?_⟩
  · intro i hi
    have := intMem_form h v (0 + 8 * P.n * i)
    interval_cases i
    · simpa [hv] using this
    · simpa [hv, show P.n ≠ 0 by omega] using this
  · intro i hi
    have := intMem_form h v (80 * P.n + 8 * P.n * i)
    simpa [hv, show 80 * P.n + 8 * P.n * i ≠ 8 * P.n by omega, show P.n ≠ 0 by omega] using this
  · intro hc
    have k0 : MontForm P.p P.n (intMem P v 0) 1 := by simpa [hv] using intMem_form h v 0
    have kb : ∀ i, MontForm P.p P.n (intMem P v (80 * P.n + 8 * P.n * i)) 0 := fun i => by
      have := intMem_form h v (80 * P.n + 8 * P.n * i)
      simpa [hv, show 80 * P.n + 8 * P.n * i ≠ 8 * P.n by omega, show P.n ≠ 0 by omega] using this
    obtain ⟨w1, hw1, e1⟩ := addAt_mont h (intMem P v) (P.elemPtr (8 * P.n) 0) (P.elemPtr 0 0)
      (P.elemPtr (80 * P.n) 0) (intMem_form h v _).len (by simpa [elemPtr] using k0) (kb 0)
    have t1 : P.elemPtr 0 1 = P.elemPtr (8 * P.n) 0 := by unfold elemPtr; omega
    obtain ⟨w2, hw2, e2⟩ := addAt_mont h (Function.update (intMem P v) (P.elemPtr (8 * P.n) 0) w1)
      (P.elemPtr (8 * P.n) 1) (P.elemPtr 0 1) (P.elemPtr (80 * P.n) 1) (a := 1 + 0) (b := 0)
      (by rw [Function.update_of_ne (by unfold elemPtr; omega)]; exact (intMem_form h v _).len)
      (by rw [t1, Function.update_self]; exact hw1)
      (by rw [Function.update_of_ne (by unfold elemPtr; omega)]; exact kb 1)
    have hc' : MontForm P.p P.n
        (P.vecLoop P.addAt (8 * P.n) 0 (80 * P.n) 2 0 (intMem P v) (P.elemPtr (8 * P.n) 1)) (5 + 0) := hc
    rw [vecLoop, vecLoop, vecLoop, e1, zero_add, e2, Function.update_self] at hc'
    have := (MontForm_inj h hw2 hc').1 rfl
    have h4 : ((4 : ℕ) : ZMod P.p) = 0 := by push_cast; linear_combination -this
    rw [ZMod.natCast_eq_zero_iff] at h4
    exact absurd (Nat.le_of_dvd (by norm_num) h4) (by omega)

/-- **C111**, `v.ScalarMul(v, &v[0])`: the scalar is overwritten by its square before the other elements are
multiplied (`[2, 3]` becomes `[4, 12]`). -/
theorem C111_scalar_refuted (h : P.Good) (hp : 6 < P.p) : ∃ (m : Mem) (v : Slice) (x : Nat → ZMod P.p),
    v.len = 2 ∧ Holds P m v x ∧ ∃ m', P.vecScalarMul m v v v.ptr = some m' ∧
    ¬ MontForm P.p P.n (m' (v.ptr + 8 * P.n * 1)) (x 1 * x 0) := by
  have h2 := h.two_le
  set v : Nat → Int := fun p => if p = 0 then 2 else 3 with hv
  refine ⟨intMem P v, ⟨0, 2⟩, fun i => if i = 0 then 2 else 3, rfl, ?_,
    P.scalarLoop 0 0 0 2 0 (intMem P v), rfl, ?_⟩
  · intro i hi
    have := intMem_form h v (0 + 8 * P.n * i)
    interval_cases i
    · simpa [hv] using this
    · simpa [hv, show P.n ≠ 0 by omega] using this
  · intro hc
    have k0 : MontForm P.p P.n (intMem P v 0) 2 := by simpa [hv] using intMem_form h v 0
    have k1 : MontForm P.p P.n (intMem P v (P.elemPtr 0 1)) 3 := by
      have := intMem_form h v (P.elemPtr 0 1)
      simpa [hv, elemPtr, show P.n ≠ 0 by omega] using this
    obtain ⟨w1, hw1, e1⟩ := mulAt_mont h (intMem P v) (P.elemPtr 0 0) (P.elemPtr 0 0) 0
      (intMem_form h v _).len (by simpa [elemPtr] using k0) k0
    have t1 : P.elemPtr 0 0 = 0 := by unfold elemPtr; omega
    obtain ⟨w2, hw2, e2⟩ := mulAt_mont h (Function.update (intMem P v) (P.elemPtr 0 0) w1)
      (P.elemPtr 0 1) (P.elemPtr 0 1) 0 (a := 3) (b := 2 * 2)
      (by rw [Function.update_of_ne (by unfold elemPtr; omega)]; exact (intMem_form h v _).len)
      (by rw [Function.update_of_ne (by unfold elemPtr; omega)]; exact k1)
      (by rw [t1, Function.update_self]; exact hw1)
    have hc' : MontForm P.p P.n (P.scalarLoop 0 0 0 2 0 (intMem P v) (P.elemPtr 0 1)) (3 * 2) := hc
    rw [scalarLoop, scalarLoop, scalarLoop, e1, zero_add, e2, Function.update_self] at hc'
    have := (MontForm_inj h hw2 hc').1 rfl
    have h4 : ((6 : ℕ) : ZMod P.p) = 0 := by push_cast; linear_combination this
    rw [ZMod.natCast_eq_zero_iff] at h4
    exact absurd (Nat.le_of_dvd (by norm_num) h4) (by omega)

/-! ### The assembly loops -/

/-- What a call of the assembly needs: elements at the three places, words in memory, slices within the address
space. -/
structure VecReady (P : FieldPkg) (m : Mem) (res a b : Slice) : Prop where
  words : ∀ p, Words (m p)
  elems : Elems P m res ∧ Elems P m a ∧ Elems P m b
  res_le : res.ptr + 8 * P.n * res.len ≤ 2 ^ 64
  a_le : a.ptr + 8 * P.n * a.len ≤ 2 ^ 64
  b_le : b.ptr + 8 * P.n * b.len ≤ 2 ^ 64

/-- **C111**, `Add` in assembly: from any state of registers and flags, for non-empty slices however they overlap,
the loop of `addVec` ends and leaves the memory of the portable code; if the lengths differ both panic. -/
theorem C111_amd64_add (h : P.Good) (hf : P.full = false) (hn : P.n = 4) (s : Amd64.St) (res a b : Slice)
    (hr : VecReady P s.mem res a b) (h0 : 0 < a.len) (o : Option Mem) :
    Amd64.vecCall P Amd64.addVec_4w s res a b o ↔ o = P.vecAdd s.mem res a b := by
  unfold Amd64.vecCall vecAdd vecOp
  split_ifs with h1 h3
  · rfl
  · omega
  · push Not at h1
    have q := hr.a_le
    have q2 := hr.b_le
    have q3 := hr.res_le
    rw [hn, ← h1.1] at q2
    rw [hn, ← h1.2] at q3
    rw [hn] at q
    have call := Amd64.addVec_call h hf hn (s := s) hr.words (res := res.ptr) (a := a.ptr) (b := b.ptr) (n := a.len)
      (by omega) (by omega) (by omega) (by omega) h0
      fun j hj => ⟨hr.elems.1 j (by omega), hr.elems.2.1 j hj, hr.elems.2.2 j (by omega)⟩
    exact ⟨fun ⟨m, e, c⟩ => by rw [e, Amd64.LCall.unique c call], fun e => ⟨_, e, call⟩⟩

/-- **C111**, `Sub` in assembly. -/
theorem C111_amd64_sub (h : P.Good) (hn : P.n = 4) (s : Amd64.St) (res a b : Slice)
    (hr : VecReady P s.mem res a b) (h0 : 0 < a.len) (o : Option Mem) :
    Amd64.vecCall P Amd64.subVec_4w s res a b o ↔ o = P.vecSub s.mem res a b := by
  unfold Amd64.vecCall vecSub vecOp
  split_ifs with h1 h3
  · rfl
  · omega
  · push Not at h1
    have q := hr.a_le
    have q2 := hr.b_le
    have q3 := hr.res_le
    rw [hn, ← h1.1] at q2
    rw [hn, ← h1.2] at q3
    rw [hn] at q
    have call := Amd64.subVec_call h hn (s := s) hr.words (res := res.ptr) (a := a.ptr) (b := b.ptr) (n := a.len)
      (by omega) (by omega) (by omega) (by omega) h0
      fun j hj => ⟨hr.elems.1 j (by omega), hr.elems.2.1 j hj, hr.elems.2.2 j (by omega)⟩
    exact ⟨fun ⟨m, e, c⟩ => by rw [e, Amd64.LCall.unique c call], fun e => ⟨_, e, call⟩⟩

/-- **C111**, the two packages with these programs. -/
theorem C111_amd64_pkgs : ∀ P ∈ [jindoPkg, bfvPkg], P.Good ∧ P.full = false ∧ P.n = 4 := by
  intro P hP
  simp only [List.mem_cons, List.not_mem_nil, or_false] at hP
  rcases hP with rfl | rfl
  · exact ⟨C79_jindo.1, rfl, rfl⟩
  · exact ⟨C79_bfv.1, rfl, rfl⟩

/-- **C111**, empty vectors: on amd64 `Add` and `Sub` panic where the portable code does nothing, and
`InnerProduct` with an empty receiver is zero whatever the other length where the portable code panics. -/
theorem C111_amd64_empty (P : FieldPkg) (code : List Amd64.LInstr) (s : Amd64.St) (p q r k : Nat) (hk : 0 < k) :
    (∀ o, Amd64.vecCall P code s ⟨p, 0⟩ ⟨q, 0⟩ ⟨r, 0⟩ o ↔ o = none) ∧
    P.vecAdd s.mem ⟨p, 0⟩ ⟨q, 0⟩ ⟨r, 0⟩ = some s.mem ∧ P.vecSub s.mem ⟨p, 0⟩ ⟨q, 0⟩ ⟨r, 0⟩ = some s.mem ∧
    Amd64.vecInnerAmd64 P s.mem ⟨q, 0⟩ ⟨r, k⟩ = some (List.replicate P.n 0) ∧
    P.vecInner s.mem ⟨q, 0⟩ ⟨r, k⟩ = none := by
  refine ⟨fun o => ?_, rfl, rfl, rfl, if_pos (by show 0 ≠ k; omega)⟩
  unfold Amd64.vecCall
  simp

/-- **C111**, a case: in place `[2, 3, 3] += [2, 3, 3]` in the field of Jindo, in assembly. -/
theorem C111_case (s : Amd64.St) (hs : s.mem = intMem jindoPkg fun p => if p = 0 then 2 else 3) :
    VecReady jindoPkg s.mem ⟨0, 3⟩ ⟨0, 3⟩ ⟨0, 3⟩ ∧ ∃ m',
    Amd64.vecCall jindoPkg Amd64.addVec_4w s ⟨0, 3⟩ ⟨0, 3⟩ ⟨0, 3⟩ (some m') ∧
    Holds jindoPkg m' ⟨0, 3⟩ (fun i => if i = 0 then 4 else 6) := by
  obtain ⟨h, hf, hn⟩ := C111_amd64_pkgs jindoPkg (by simp)
  have form : ∀ p, MontForm jindoPkg.p jindoPkg.n (s.mem p) (((if p = 0 then 2 else 3 : ℤ) : ℤ) : ZMod jindoPkg.p) :=
    fun p => hs ▸ intMem_form h _ p
  have rd : VecReady jindoPkg s.mem ⟨0, 3⟩ ⟨0, 3⟩ ⟨0, 3⟩ :=
    ⟨fun p => (form p).words, ⟨fun i _ => (form _).len, fun i _ => (form _).len, fun i _ => (form _).len⟩,
      by rw [hn]; norm_num, by rw [hn]; norm_num, by rw [hn]; norm_num⟩
  have hold : Holds jindoPkg s.mem ⟨0, 3⟩ (fun i => if i = 0 then 2 else 3) := by
    intro i _
    have := form (0 + 8 * jindoPkg.n * i)
    rw [hn] at this ⊢
    by_cases hi : i = 0
    · subst hi; simpa using this
    · simpa [hi] using this
  obtain ⟨m', e, k, _⟩ := C111_add h (res := ⟨0, 3⟩) rfl rfl rd.elems.1 hold hold (Or.inl le_rfl) (Or.inl le_rfl)
  refine ⟨rd, m', (C111_amd64_add h hf hn s _ _ _ rd (by norm_num) _).2 e.symm, fun i hi => ?_⟩
  have := k i hi
  by_cases h0 : i = 0
  · subst h0
    simp only [if_true] at this ⊢
    norm_num at this ⊢
    exact this
  · simp only [if_neg h0] at this ⊢
    norm_num at this ⊢
    exact this

end Ringo
