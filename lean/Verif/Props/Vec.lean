import Verif.Proof.Vec
import Mathlib.Data.ZMod.Basic
import Mathlib.Tactic.IntervalCases

/-!
# C07, C08: vector kernels and bit reversal
-/

namespace Ringo

variable {F : Type}

/-- Slices that are the same slice or do not overlap. -/
def SameOrDisjoint (x y : List Nat) : Prop := x = y ∨ List.Disjoint x y

theorem sameOrDisjoint_index {x y : List Nat} (hy : y.Nodup) (hl : x.length = y.length)
    (h : SameOrDisjoint x y) : ∀ i < y.length, ∀ j < y.length, x.getD j 0 = y.getD i 0 → i = j := by
  intro i hi j hj he
  rw [List.getD_eq_getElem?_getD, List.getElem?_eq_getElem (by omega), Option.getD_some,
    List.getD_eq_getElem?_getD, List.getElem?_eq_getElem hi, Option.getD_some] at he
  rcases h with rfl | h
  · exact ((List.Nodup.getElem_inj_iff hy).1 he).symm
  · exact absurd (List.getElem_mem (by omega : j < x.length)) (fun hm => h hm (he ▸ List.getElem_mem hi))

theorem vec2To_spec (op : F → F → F) (h : Heap F) (xOut x0 x1 : List Nat)
    (l0 : x0.length = xOut.length) (l1 : x1.length = xOut.length) (hn : xOut.Nodup)
    (a0 : SameOrDisjoint x0 xOut) (a1 : SameOrDisjoint x1 xOut) :
    ∃ h', vec2To op h xOut x0 x1 = .ok h' ∧
      h'.read xOut = List.zipWith op (h.read x0) (h.read x1) ∧ ∀ c, c ∉ xOut → h' c = h c := by
  refine ⟨_, vec2To_eq op h xOut x0 x1 (by omega) (by omega), ?_⟩
  obtain ⟨s1, s2⟩ := heapLoop_spec op h (xOut.getD · 0) (x0.getD · 0) (x1.getD · 0) xOut.length
    (fun i hi j hj he => sameOrDisjoint_index hn rfl (Or.inl rfl) i hi j hj he.symm)
    (sameOrDisjoint_index hn l0 a0) (sameOrDisjoint_index hn l1 a1)
  refine ⟨?_, ?_⟩
  · apply List.ext_getElem
    · simp [Heap.read, l0, l1]
    · intro i h1 h2
      have hi : i < xOut.length := by simpa [Heap.read] using h1
      have := s1 i hi
      simp only [List.getD_eq_getElem?_getD, List.getElem?_eq_getElem hi,
        List.getElem?_eq_getElem (show i < x0.length by omega),
        List.getElem?_eq_getElem (show i < x1.length by omega), Option.getD_some] at this
      simpa [Heap.read] using this
  · intro c hc
    apply s2
    intro i hi he
    apply hc
    rw [he, List.getD_eq_getElem?_getD, List.getElem?_eq_getElem hi, Option.getD_some]
    exact List.getElem_mem hi

theorem vec1To_spec (op : F → F) (h : Heap F) (xOut x0 : List Nat)
    (l0 : x0.length = xOut.length) (hn : xOut.Nodup) (a0 : SameOrDisjoint x0 xOut) :
    ∃ h', vec1To op h xOut x0 = .ok h' ∧
      h'.read xOut = (h.read x0).map op ∧ ∀ c, c ∉ xOut → h' c = h c := by
  refine ⟨_, vec1To_eq op h xOut x0 (by omega), ?_⟩
  obtain ⟨h', e, r, o⟩ := vec2To_spec (fun a _ => op a) h xOut x0 x0 l0 l0 hn a0 a0
  rw [vec2To_eq _ _ _ _ _ (by omega) (by omega)] at e
  injection e with e
  rw [← e] at r o
  refine ⟨r.trans ?_, o⟩
  simp [Heap.read]

/-- **C07** (`addVecTo`).  `out[i] = x0[i] + x1[i]` for every `i`, every other cell untouched,
also when the output is one of the inputs.  Any length. -/
theorem C07_addVecTo [Add F] (h : Heap F) (xOut x0 x1 : List Nat)
    (l0 : x0.length = xOut.length) (l1 : x1.length = xOut.length) (hn : xOut.Nodup)
    (a0 : SameOrDisjoint x0 xOut) (a1 : SameOrDisjoint x1 xOut) :
    ∃ h', addVecTo h xOut x0 x1 = .ok h' ∧
      h'.read xOut = List.zipWith (fun a b => a + b) (h.read x0) (h.read x1) ∧
      ∀ c, c ∉ xOut → h' c = h c := vec2To_spec _ h xOut x0 x1 l0 l1 hn a0 a1

/-- **C07** (`subVecTo`). -/
theorem C07_subVecTo [Sub F] (h : Heap F) (xOut x0 x1 : List Nat)
    (l0 : x0.length = xOut.length) (l1 : x1.length = xOut.length) (hn : xOut.Nodup)
    (a0 : SameOrDisjoint x0 xOut) (a1 : SameOrDisjoint x1 xOut) :
    ∃ h', subVecTo h xOut x0 x1 = .ok h' ∧
      h'.read xOut = List.zipWith (fun a b => a - b) (h.read x0) (h.read x1) ∧
      ∀ c, c ∉ xOut → h' c = h c := vec2To_spec _ h xOut x0 x1 l0 l1 hn a0 a1

/-- **C07** (`mulVecTo`). -/
theorem C07_mulVecTo [Mul F] (h : Heap F) (xOut x0 x1 : List Nat)
    (l0 : x0.length = xOut.length) (l1 : x1.length = xOut.length) (hn : xOut.Nodup)
    (a0 : SameOrDisjoint x0 xOut) (a1 : SameOrDisjoint x1 xOut) :
    ∃ h', mulVecTo h xOut x0 x1 = .ok h' ∧
      h'.read xOut = List.zipWith (fun a b => a * b) (h.read x0) (h.read x1) ∧
      ∀ c, c ∉ xOut → h' c = h c := vec2To_spec _ h xOut x0 x1 l0 l1 hn a0 a1

/-- **C07** (`negVecTo`). -/
theorem C07_negVecTo [Neg F] (h : Heap F) (xOut x0 : List Nat)
    (l0 : x0.length = xOut.length) (hn : xOut.Nodup) (a0 : SameOrDisjoint x0 xOut) :
    ∃ h', negVecTo h xOut x0 = .ok h' ∧
      h'.read xOut = (h.read x0).map (fun a => -a) ∧ ∀ c, c ∉ xOut → h' c = h c :=
  vec1To_spec _ h xOut x0 l0 hn a0

/-- **C07** (`scalarMulVecTo`). -/
theorem C07_scalarMulVecTo [Mul F] (h : Heap F) (xOut x0 : List Nat) (c : F)
    (l0 : x0.length = xOut.length) (hn : xOut.Nodup) (a0 : SameOrDisjoint x0 xOut) :
    ∃ h', scalarMulVecTo h xOut x0 c = .ok h' ∧
      h'.read xOut = (h.read x0).map (fun a => a * c) ∧ ∀ a, a ∉ xOut → h' a = h a :=
  vec1To_spec _ h xOut x0 l0 hn a0

/-- Non-vacuity: length 11 (a block of eight and a tail), in place on the first operand. -/
example : ∃ h', addVecTo (fun a => a * a) (List.range 11) (List.range 11) (List.range' 20 11) = .ok h' ∧
    h'.read (List.range 11) = [400, 442, 488, 538, 592, 650, 712, 778, 848, 922, 1000] := by
  obtain ⟨h', h1, h2, -⟩ := C07_addVecTo (fun a => a * a) (List.range 11) (List.range 11)
    (List.range' 20 11) rfl rfl (by decide) (Or.inl rfl) (Or.inr (by intro a h1 h2; simp at h1 h2; omega))
  exact ⟨h', h1, h2⟩

/-- **C08**.  On a slice of length `2^K`, `bitReverseInPlace` succeeds, and element `i` of the
result is element `rev K i` of the input. -/
theorem C08_bitReverse {α : Type} (K : Nat) (v : List α) (hv : v.length = 2 ^ K) :
    ∃ w, bitReverseInPlace v = .ok w ∧ w.length = 2 ^ K ∧
      ∀ i, i < 2 ^ K → w[i]? = v[rev K i]? := bitReverse_spec K v hv

/-- **C08**, second half: reversing twice restores the slice. -/
theorem C08_bitReverse_twice {α : Type} (K : Nat) (v : List α) (hv : v.length = 2 ^ K) :
    (bitReverseInPlace v >>= fun w => bitReverseInPlace w) = .ok v := by
  obtain ⟨w, h1, h2, h3⟩ := bitReverse_spec K v hv
  obtain ⟨u, u1, u2, u3⟩ := bitReverse_spec K w h2
  rw [h1, go_bind_ok, u1]
  congr 1
  apply List.ext_getElem?
  intro i
  by_cases hi : i < 2 ^ K
  · rw [u3 i hi, h3 _ (rev_lt K i), rev_rev K i hi]
  · rw [List.getElem?_eq_none (by omega), List.getElem?_eq_none (by omega)]

example : bitReverseInPlace [10, 11, 12, 13, 14, 15, 16, 17] =
    .ok [10, 14, 12, 16, 11, 15, 13, 17] := by
  obtain ⟨w, h1, h2, h3⟩ := C08_bitReverse 3 [10, 11, 12, 13, 14, 15, 16, 17] rfl
  rw [h1]
  congr 1
  apply List.ext_getElem?
  intro i
  rcases Nat.lt_or_ge i 8 with hi | hi
  · rw [h3 i hi]; interval_cases i <;> rfl
  · rw [List.getElem?_eq_none (by omega), List.getElem?_eq_none (by simpa using hi)]

/-- The domain of C08 is sharp: on length 3 the loop never ends. -/
theorem C08_hangs_on_three {α : Type} (a b c : α) :
    bitReverseInPlace [a, b, c] = .error .hang := by
  simp [bitReverseInPlace, forRange, List.range', brInner]

end Ringo
