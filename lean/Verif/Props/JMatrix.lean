import Verif.Proof.JRing
import Verif.Props.Csprng
import Verif.Proof.PolyOps
import Verif.Props.JDiv

/-!
# C57, C65, C66: the committed matrix and its size

A cell holds a vector of `slots` field elements; the encoder pads shorter vectors with zeros, and
cells that are not written hold zeros.
-/

namespace Ringo

open Finset

section
variable {F : Type} [CommRing F]

/-- The element at position `s` of a cell. -/
def cellAt (cells : List (List (Option (List F)))) (i j s : Nat) : F :=
  (((cells.getD i []).getD j none).getD []).getD s 0

/-- The shapes `NewParameters` chooses (see `C65`). -/
structure MatParams.Good (M : MatParams) : Prop where
  rows : 2 ≤ M.rows
  cols : 1 ≤ M.cols
  slots : 1 ≤ M.slots
  rank : M.rank = M.cols * (M.rows - 1) * M.slots

theorem MatParams.Good.pos {M : MatParams} (h : M.Good) : 1 ≤ M.cols * M.slots :=
  Nat.mul_pos h.cols h.slots

theorem getD_map_range {A : Type} (f : Nat → A) (n i : Nat) (d : A) (hi : i < n) :
    ((List.range n).map f).getD i d = f i := by
  rw [List.getD_eq_getElem _ _ (by simpa using hi)]; simp

theorem powLoop (n : Nat) (y : F) (l0 : List F) (h0 : l0.length = n) (h1 : l0[0]? = some 1)
    (hn : 1 ≤ n) :
    forRange 1 n 1 l0 (fun left i => do
      let z ← idx left (i - 1)
      setIdx left i (z * y)) = .ok ((List.range n).map fun j => y ^ j) := by
  obtain ⟨s, h2, h3, h4⟩ := forRange_spec (f := fun (left : List F) i => do
      let z ← idx left (i - 1)
      setIdx left i (z * y)) 1 n hn
    (fun i s => s.length = n ∧ ∀ t < i, s[t]? = some (y ^ t)) l0
    ⟨h0, by intro t ht; rw [show t = 0 by omega, h1, pow_zero]⟩ (by
      rintro i s hi1 hi2 ⟨h5, h6⟩
      have h7 : idx s (i - 1) = .ok (y ^ (i - 1)) := idx_ok_iff.mpr (h6 (i - 1) (by omega))
      refine ⟨s.set i (y ^ i), ?_, by simpa using h5, ?_⟩
      · rw [h7, go_bind_ok, setIdx_ok (by omega), ← pow_succ, show i - 1 + 1 = i by omega]
      · intro t ht
        rw [List.getElem?_set]
        by_cases h8 : i = t
        · subst h8; rw [if_pos rfl, if_pos (by omega)]
        · rw [if_neg h8]; exact h6 t (by omega))
  rw [h2]
  congr 1
  apply List.ext_getElem?
  intro t
  by_cases ht : t < n
  · rw [h4 t ht, List.getElem?_map, List.getElem?_range ht]; rfl
  · rw [List.getElem?_eq_none (by omega), List.getElem?_eq_none (by simp; omega)]

theorem leftVec_spec {M : MatParams} (h : M.Good) (x : F) :
    leftVec M x = .ok ((List.range M.rows).map fun j =>
      if j = M.rows - 1 then x else x ^ (M.cols * M.slots * j)) := by
  have hr := h.rows
  unfold leftVec
  dsimp only
  rw [setIdx_ok (by simp; omega), go_bind_ok, powLoop M.rows _ _ (by simp) (by
    rw [List.getElem?_set, if_pos rfl, if_pos (by simp; omega)]) (by omega), go_bind_ok,
    setIdx_ok (by simp; omega)]
  congr 1
  apply List.ext_getElem (by simp)
  intro j hj1 hj2
  rw [List.getElem_set]
  simp only [List.getElem_map, List.getElem_range]
  by_cases hj : j = M.rows - 1
  · rw [if_pos hj.symm, if_pos hj]
  · rw [if_neg (Ne.symm hj), if_neg hj, C01_exp, ← pow_mul]

theorem rightVec_spec {M : MatParams} (h : M.Good) (x : F) :
    rightVec M x = .ok ((List.range (M.cols * M.slots)).map fun k => x ^ k) := by
  have hr := h.pos
  unfold rightVec
  dsimp only
  rw [setIdx_ok (by rw [List.length_replicate]; omega), go_bind_ok, powLoop _ _ _ (by simp) (by
    rw [List.getElem?_set, if_pos rfl, if_pos (by rw [List.length_replicate]; omega)]) hr]

/-- Entry `k` of the blinding row. -/
def lastAt (n : Nat) (rand : Nat → F) (k : Nat) : F := if k + 1 < n then rand k else 0

theorem genRows_spec {M : MatParams} (h : M.Good) (rand : Nat → F) (v : List F) (hv : v ≠ []) :
    genFirstLastRow M rand v = .ok
      ((List.range (M.cols * M.slots)).map (fun k => v.getD k 0 -
        (if k = 0 then 0 else lastAt (M.cols * M.slots) rand (k - 1))),
       (List.range (M.cols * M.slots)).map (lastAt (M.cols * M.slots) rand)) := by
  have hn := h.pos
  unfold genFirstLastRow
  dsimp only
  rw [if_neg (by omega)]
  have hl : 0 < v.length := List.length_pos_of_ne_nil hv
  rw [idx_ok hl, go_bind_ok, go_pure]
  set n := M.cols * M.slots
  obtain ⟨m, hm⟩ : ∃ m, n = m + 1 := ⟨n - 1, by omega⟩
  have hlast : (List.range (n - 1)).map rand ++ [0] = (List.range n).map (lastAt n rand) := by
    rw [hm, Nat.add_sub_cancel, List.range_succ, List.map_append]
    congr 1
    · apply List.map_congr_left
      intro k hk
      rw [lastAt, if_pos (by have := List.mem_range.mp hk; omega)]
    · simp [lastAt]
  rw [hlast]
  generalize hL : (List.range n).map (lastAt n rand) = L
  congr 2
  rw [hm, List.range_eq_range', List.range'_succ, List.map_cons, Nat.add_sub_cancel]
  congr 1
  · simp [List.getElem?_eq_getElem hl]
  · apply List.map_congr_left
    intro k hk
    have hk2 := (List.mem_range'_1).mp hk
    rw [if_neg (show k ≠ 0 by omega), ← hL, hm,
      getD_map_range _ _ _ _ (show k - 1 < m + 1 by omega)]
    split
    · rfl
    · rw [List.getD_eq_default _ _ (show v.length ≤ k by omega)]

theorem goSlice_ok {α : Type} (l : List α) (a b : Nat) (h1 : a ≤ b) (h2 : b ≤ l.length) :
    goSlice l a b = .ok ((l.take b).drop a) := by
  unfold goSlice; rw [if_pos ⟨h1, h2⟩]; rfl

theorem take_drop_getD (l : List F) (a b s : Nat) (hs : a + s < b) :
    ((l.take b).drop a).getD s 0 = l.getD (a + s) 0 := by
  rw [List.getD_eq_getElem?_getD, List.getElem?_drop, List.getElem?_take_of_lt hs,
    ← List.getD_eq_getElem?_getD]

theorem take_drop_getD_none (l : List F) (a b s : Nat) (hs : b ≤ a + s) :
    ((l.take b).drop a).getD s 0 = 0 := by
  rw [List.getD_eq_default]
  simp
  omega

/-- The entry of the matrix in row `j` and column `k` (of `cols * slots`). -/
def matEntry (M : MatParams) (rand : Nat → F) (v : List F) (j k : Nat) : F :=
  if j = 0 then v.getD k 0 - (if k = 0 then 0 else lastAt (M.cols * M.slots) rand (k - 1))
  else if j = M.rows - 1 then lastAt (M.cols * M.slots) rand k
  else v.getD (j * (M.cols * M.slots) + k) 0

theorem cellArg_spec {M : MatParams} (rand : Nat → F) (v : List F) (i j : Nat)
    (hi : i < M.cols) :
    ∃ c, cellArg M v
      ((List.range (M.cols * M.slots)).map (fun k => v.getD k 0 -
        (if k = 0 then 0 else lastAt (M.cols * M.slots) rand (k - 1))))
      ((List.range (M.cols * M.slots)).map (lastAt (M.cols * M.slots) rand)) i j = .ok c ∧
      (∀ l, c = some l → l.length ≤ M.slots) ∧
      ∀ s < M.slots, (c.getD []).getD s 0 = matEntry M rand v j (i * M.slots + s) := by
  have hend : (i + 1) * M.slots ≤ M.cols * M.slots := Nat.mul_le_mul_right _ hi
  have hadd : (i + 1) * M.slots = i * M.slots + M.slots := by ring
  unfold cellArg matEntry
  dsimp only
  by_cases hj0 : j = 0
  · rw [if_pos hj0, goSlice_ok _ _ _ (by omega) (by simpa using hend)]
    refine ⟨_, rfl, by rintro l ⟨⟩; rw [List.length_drop, List.length_take]; omega, ?_⟩
    intro s hs
    rw [if_pos hj0, Option.getD_some, take_drop_getD _ _ _ _ (by omega),
      getD_map_range _ _ _ _ (by omega)]
  · rw [if_neg hj0]
    by_cases hj1 : j = M.rows - 1
    · rw [if_pos hj1, goSlice_ok _ _ _ (by omega) (by simpa using hend)]
      refine ⟨_, rfl, by rintro l ⟨⟩; rw [List.length_drop, List.length_take]; omega, ?_⟩
      intro s hs
      rw [if_neg hj0, if_pos hj1, Option.getD_some, take_drop_getD _ _ _ _ (by omega),
        getD_map_range _ _ _ _ (by omega)]
    · rw [if_neg hj1]
      have hjm : j * M.cols * M.slots = j * (M.cols * M.slots) := Nat.mul_assoc _ _ _
      by_cases hlen : j * M.cols * M.slots + i * M.slots > v.length
      · rw [if_pos hlen]
        refine ⟨none, rfl, by rintro l ⟨⟩, ?_⟩
        intro s hs
        rw [if_neg hj0, if_neg hj1, List.getD_eq_default v _ (by omega)]
        rfl
      · rw [if_neg hlen, goSlice_ok _ _ _ (by omega) (by omega)]
        refine ⟨_, rfl, by rintro l ⟨⟩; rw [List.length_drop, List.length_take]; omega, ?_⟩
        intro s hs
        rw [if_neg hj0, if_neg hj1, Option.getD_some]
        by_cases hs2 : j * M.cols * M.slots + i * M.slots + s < v.length
        · rw [take_drop_getD _ _ _ _ (by omega)]
          congr 1; omega
        · rw [take_drop_getD_none _ _ _ _ (by omega), List.getD_eq_default v _ (by omega)]

theorem mapM_spec {α β : Type} (f : α → Go β) (Q : α → β → Prop) (l : List α)
    (h : ∀ a ∈ l, ∃ b, f a = .ok b ∧ Q a b) :
    ∃ r, l.mapM f = .ok r ∧ List.Forall₂ Q l r := by
  induction l with
  | nil => exact ⟨[], rfl, .nil⟩
  | cons a l ih =>
    obtain ⟨b, h1, h2⟩ := h a (by simp)
    obtain ⟨r, h3, h4⟩ := ih (fun x hx => h x (by simp [hx]))
    exact ⟨b :: r, by rw [List.mapM_cons, h1, go_bind_ok, h3]; rfl, .cons h2 h4⟩

theorem forall₂_range {β : Type} {Q : Nat → β → Prop} {n : Nat} {r : List β}
    (h : List.Forall₂ Q (List.range n) r) : r.length = n ∧ ∀ i (hi : i < r.length), Q i r[i] := by
  have hl := h.length_eq
  simp only [List.length_range] at hl
  refine ⟨hl.symm, ?_⟩
  intro i hi
  have := h.get (i := i) (by simp; omega) hi
  simpa using this

theorem matrixCells_spec {M : MatParams} (h : M.Good) (rand : Nat → F) (v : List F) (hv : v ≠ [])
    (hr : v.length ≤ M.rank) :
    ∃ cells, matrixCells M rand v = .ok cells ∧ cells.length = M.cols ∧
      (∀ col ∈ cells, col.length = M.rows ∧ ∀ c ∈ col, ∀ l, c = some l → l.length ≤ M.slots) ∧
      ∀ i < M.cols, ∀ j < M.rows, ∀ s < M.slots,
        cellAt cells i j s = matEntry M rand v j (i * M.slots + s) := by
  unfold matrixCells
  rw [if_neg (by omega), genRows_spec h rand v hv, go_bind_ok]
  dsimp only
  obtain ⟨cells, h1, h2⟩ := mapM_spec
    (fun i => (List.range M.rows).mapM fun j => cellArg M v
      ((List.range (M.cols * M.slots)).map (fun k => v.getD k 0 -
        (if k = 0 then 0 else lastAt (M.cols * M.slots) rand (k - 1))))
      ((List.range (M.cols * M.slots)).map (lastAt (M.cols * M.slots) rand)) i j)
    (fun i col => List.Forall₂ (fun j (c : Option (List F)) => (∀ l, c = some l → l.length ≤ M.slots) ∧
      ∀ s < M.slots, (c.getD []).getD s 0 = matEntry M rand v j (i * M.slots + s))
      (List.range M.rows) col) (List.range M.cols) (by
      intro i hi
      exact mapM_spec _ _ _ (fun j _ => cellArg_spec rand v i j (List.mem_range.mp hi)))
  obtain ⟨h3, h4⟩ := forall₂_range h2
  refine ⟨cells, h1, h3, ?_, ?_⟩
  · intro col hcol
    obtain ⟨i, hi, rfl⟩ := List.getElem_of_mem hcol
    obtain ⟨h5, h6⟩ := forall₂_range (h4 i hi)
    refine ⟨h5, ?_⟩
    intro c hc
    obtain ⟨j, hj, rfl⟩ := List.getElem_of_mem hc
    exact (h6 j hj).1
  · intro i hi j hj s hs
    have hi' : i < cells.length := by omega
    obtain ⟨h5, h6⟩ := forall₂_range (h4 i hi')
    unfold cellAt
    rw [List.getD_eq_getElem _ _ hi', List.getD_eq_getElem _ _ (show j < cells[i].length by omega)]
    exact (h6 j (by omega)).2 s hs

theorem sum_cells (c s : Nat) (f : Nat → F) :
    ∑ i ∈ range c, ∑ j ∈ range s, f (i * s + j) = ∑ k ∈ range (c * s), f k := by
  rw [Nat.mul_comm c s, sum_slots, sum_comm]

/-- The blinding row cancels. -/
theorem blind_cancel (n : Nat) (hn : 1 ≤ n) (rand : Nat → F) (x : F) :
    ∑ k ∈ range n, (if k = 0 then 0 else lastAt n rand (k - 1)) * x ^ k =
      x * ∑ k ∈ range n, lastAt n rand k * x ^ k := by
  obtain ⟨m, rfl⟩ : ∃ m, n = m + 1 := ⟨n - 1, by omega⟩
  rw [sum_range_succ', sum_range_succ (fun k => lastAt (m + 1) rand k * x ^ k)]
  have h1 : lastAt (m + 1) rand m = 0 := by simp [lastAt]
  rw [h1]
  simp only [if_true, zero_mul, add_zero, mul_sum]
  apply sum_congr rfl
  intro k _
  rw [if_neg (by omega), Nat.add_sub_cancel, pow_succ]
  ring

theorem matEntry_eval {M : MatParams} (h : M.Good) (rand : Nat → F) (v : List F)
    (hr : v.length ≤ M.rank) (x : F) :
    ∑ j ∈ range M.rows, (if j = M.rows - 1 then x else x ^ (M.cols * M.slots * j)) *
      ∑ k ∈ range (M.cols * M.slots), matEntry M rand v j k * x ^ k = evalAt v.length v x := by
  obtain ⟨m, hm⟩ : ∃ m, M.rows = m + 2 := ⟨M.rows - 2, by have := h.rows; omega⟩
  set n := M.cols * M.slots with hn
  have hpos : 1 ≤ n := h.pos
  rw [hm, sum_range_succ, sum_range_succ']
  simp only [show m + 2 - 1 = m + 1 by omega, if_true]
  rw [if_neg (show (0:Nat) ≠ m + 1 by omega), Nat.mul_zero, pow_zero, one_mul]
  have h0 : ∑ k ∈ range n, matEntry M rand v 0 k * x ^ k =
      ∑ k ∈ range n, v.getD k 0 * x ^ k - x * ∑ k ∈ range n, lastAt n rand k * x ^ k := by
    rw [← blind_cancel n hpos rand x, ← sum_sub_distrib]
    apply sum_congr rfl
    intro k _
    rw [matEntry, if_pos rfl, sub_mul]
  have hl : ∑ k ∈ range n, matEntry M rand v (m + 1) k * x ^ k =
      ∑ k ∈ range n, lastAt n rand k * x ^ k := by
    apply sum_congr rfl
    intro k _
    rw [matEntry, if_neg (by omega), if_pos (by omega)]
  have hmid : ∑ j ∈ range m, (if j + 1 = m + 1 then x else x ^ (n * (j + 1))) *
      ∑ k ∈ range n, matEntry M rand v (j + 1) k * x ^ k =
      ∑ j ∈ range m, ∑ k ∈ range n, v.getD ((j + 1) * n + k) 0 * x ^ ((j + 1) * n + k) := by
    apply sum_congr rfl
    intro j hj
    have := mem_range.mp hj
    rw [if_neg (by omega), mul_sum]
    apply sum_congr rfl
    intro k _
    rw [matEntry, if_neg (by omega), if_neg (by omega), pow_add, Nat.mul_comm n]
    ring
  rw [h0, hl, hmid]
  have htot : ∑ j ∈ range m, ∑ k ∈ range n, v.getD ((j + 1) * n + k) 0 * x ^ ((j + 1) * n + k) +
      ∑ k ∈ range n, v.getD k 0 * x ^ k = ∑ t ∈ range ((m + 1) * n), v.getD t 0 * x ^ t := by
    rw [← sum_cells (m + 1) n, sum_range_succ']
    simp
  have hrank : v.length ≤ (m + 1) * n := by
    have := h.rank
    rw [hm, show m + 2 - 1 = m + 1 by omega] at this
    calc v.length ≤ M.rank := hr
      _ = (m + 1) * n := by rw [this, hn]; ring
  have hev : ∑ t ∈ range ((m + 1) * n), v.getD t 0 * x ^ t = evalAt v.length v x := by
    obtain ⟨r, hr2⟩ := Nat.exists_eq_add_of_le hrank
    rw [hr2, sum_range_add]
    unfold evalAt
    rw [add_eq_left]
    apply sum_eq_zero
    intro t _
    rw [List.getD_eq_default _ _ (by omega), zero_mul]
  rw [← hev, ← htot]
  ring

/-- **C57.** For every vector `v` of coefficients with `1 ≤ len(v) ≤ rank`, every choice of the
blinding row and every point `x`: the matrix that is encoded, multiplied from the left by
`leftVec(x)` and from the right by `rightVec(x)`, is `v(x)`. -/
theorem C57_matrix {M : MatParams} (h : M.Good) (rand : Nat → F) (v : List F) (hv : v ≠ [])
    (hr : v.length ≤ M.rank) (x : F) :
    ∃ cells left right, matrixCells M rand v = .ok cells ∧ leftVec M x = .ok left ∧
      rightVec M x = .ok right ∧
      ∑ j ∈ range M.rows, left.getD j 0 * ∑ i ∈ range M.cols, ∑ s ∈ range M.slots,
        cellAt cells i j s * right.getD (i * M.slots + s) 0 =
      ∑ t ∈ range v.length, v.getD t 0 * x ^ t := by
  obtain ⟨cells, h1, -, -, h2⟩ := matrixCells_spec h rand v hv hr
  refine ⟨cells, _, _, h1, leftVec_spec h x, rightVec_spec h x, ?_⟩
  have := matEntry_eval h rand v hr x
  unfold evalAt at this
  rw [← this]
  apply sum_congr rfl
  intro j hj
  rw [getD_map_range _ _ _ _ (mem_range.mp hj)]
  congr 1
  rw [← sum_cells]
  apply sum_congr rfl
  intro i hi
  apply sum_congr rfl
  intro s hs
  have hi' := mem_range.mp hi
  have hs' := mem_range.mp hs
  rw [h2 i hi' j (mem_range.mp hj) s hs', getD_map_range]
  rw [Nat.mul_comm M.cols]
  exact split_lt hs' hi'

/-- **C66.** A vector longer than `rank` is refused. -/
theorem C66_long (M : MatParams) (rand : Nat → F) (v : List F) (hv : M.rank < v.length) :
    matrixCells M rand v = .error .panic := by
  unfold matrixCells; rw [if_pos hv]; rfl

/-- **C66, partial.** A nonempty vector of length at most `rank` is accepted, and the entries of the
matrix are those for the vector padded with zeros to the full rank.  Missing: the empty vector. -/
theorem C66_partial {M : MatParams} (h : M.Good) (rand : Nat → F) (v : List F) (hv : v ≠ [])
    (hr : v.length ≤ M.rank) :
    ∃ c1 c2, matrixCells M rand v = .ok c1 ∧
      matrixCells M rand (v ++ List.replicate (M.rank - v.length) 0) = .ok c2 ∧
      ∀ i < M.cols, ∀ j < M.rows, ∀ s < M.slots, cellAt c1 i j s = cellAt c2 i j s := by
  obtain ⟨c1, h1, -, -, h2⟩ := matrixCells_spec h rand v hv hr
  obtain ⟨c2, h3, -, -, h4⟩ := matrixCells_spec h rand (v ++ List.replicate (M.rank - v.length) 0)
    (by simp [hv]) (by simp; omega)
  refine ⟨c1, c2, h1, h3, ?_⟩
  intro i hi j hj s hs
  rw [h2 i hi j hj s hs, h4 i hi j hj s hs]
  have hpad : ∀ k, (v ++ List.replicate (M.rank - v.length) 0).getD k 0 = v.getD k 0 := by
    intro k
    by_cases hk : k < v.length
    · rw [List.getD_append _ _ _ _ hk]
    · rw [List.getD_append_right _ _ _ _ (by omega), List.getD_eq_default v _ (by omega)]
      rw [List.getD_eq_getElem?_getD, List.getElem?_replicate]
      split <;> rfl
  unfold matEntry
  simp only [hpad]

/-- **C66** is false: `Commit` panics on the empty vector instead of padding it. -/
theorem C66_refuted (M : MatParams) (rand : Nat → F) : matrixCells M rand [] = .error .panic := by
  unfold matrixCells genFirstLastRow
  simp only [List.length_nil]
  rw [if_neg (by omega)]
  split
  · rfl
  · rfl

end

/-- Three rows, two columns of two slots: rank 8. -/
example := C57_matrix (F := ZMod 97) (M := ⟨8, 3, 2, 2⟩) ⟨by decide, by decide, by decide, by decide⟩
  (fun k => (k : ZMod 97) + 40) [3, 1, 4, 1, 5, 9] (by simp) (by decide) 12

example : matrixCells (F := ZMod 97) ⟨8, 3, 2, 2⟩ (fun k => (k : ZMod 97) + 40) [3, 1, 4, 1, 5, 9] =
    .ok [[some [3, 58], some [5, 9], some [40, 41]], [some [60, 56], some [], some [42, 0]]] := by
  decide +kernel

/-! ## Sizes -/

theorem ceilDiv_mul (a b : Nat) (hb : 1 ≤ b) : a ≤ ceilDiv a b * b := by
  unfold ceilDiv
  have h1 := Nat.div_add_mod (a + b - 1) b
  have h2 := Nat.mod_lt (a + b - 1) hb
  rw [Nat.mul_comm] at h1
  omega

/-- What is known of the parameters while the loop of `NewParameters` runs. -/
def ShapeOk (targetN batch : Nat) (e : EcdParams) (q : JParams) : Prop :=
  q = JParams.zero ∨
    (q.batch = batch ∧ q.base = e.base ∧ q.exp = e.exp ∧ q.slots * e.exp = max e.exp 256 ∧
      2 ≤ q.rows ∧ (∃ k, q.cols = 2 ^ k) ∧ q.rank = q.cols * (q.rows - 1) * q.slots ∧
      targetN ≤ q.rank)

theorem doublings_pow2 (lo hi : Nat) (h : ∃ k, lo = 2 ^ k) : ∀ n ∈ doublings lo hi, ∃ k, n = 2 ^ k := by
  induction lo using doublings.induct (hi := hi) with
  | case1 lo hc ih =>
    rw [doublings, if_pos hc]
    intro n hn
    rcases List.mem_cons.mp hn with rfl | hn
    · exact h
    · obtain ⟨k, rfl⟩ := h
      exact ih ⟨k + 1, by rw [Nat.pow_succ, Nat.mul_comm]⟩ n hn
  | case2 lo hc =>
    rw [doublings, if_neg hc]
    intro n hn
    cases hn

theorem npAssign_shape {S : Type} [LT S] [DecidableLT S] (targetN batch : Nat) (ht : 1 ≤ targetN) (e : EcdParams)
    (he : ∃ l, e.exp = 2 ^ l) (nn : Nat)
    (hnn : ∃ k, nn = 2 ^ k) (c : Cand S) (s : JParams × Option S)
    (hs : ShapeOk targetN batch e s.1) : ShapeOk targetN batch e (npAssign targetN batch e nn c s).1 := by
  obtain ⟨l, hl⟩ := he
  have hdiv : e.exp ∣ max e.exp 256 := by
    rcases Nat.le_total e.exp 256 with h | h
    · rw [max_eq_right h, hl, show (256 : Nat) = 2 ^ 8 from rfl]
      apply Nat.pow_dvd_pow
      rw [hl, show (256 : Nat) = 2 ^ 8 from rfl] at h
      exact (Nat.pow_le_pow_iff_right (by decide)).mp h
    · rw [max_eq_left h]
  have hexp : 1 ≤ e.exp := by rw [hl]; exact Nat.two_pow_pos l
  have hsl : max e.exp 256 / e.exp * e.exp = max e.exp 256 := Nat.div_mul_cancel hdiv
  have hsp : 1 ≤ max e.exp 256 / e.exp := by
    rw [Nat.le_div_iff_mul_le hexp]; simp
  obtain ⟨k, hk⟩ := hnn
  have hnp : 1 ≤ nn := by rw [hk]; exact Nat.two_pow_pos k
  set L := max e.exp 256 / e.exp with hL
  have hm : targetN ≤ ceilDiv targetN (nn * L) * (nn * L) :=
    ceilDiv_mul _ _ (Nat.mul_pos hnp hsp)
  have hm1 : 1 ≤ ceilDiv targetN (nn * L) := by
    by_contra h
    rw [show ceilDiv targetN (nn * L) = 0 by omega] at hm
    omega
  have key : ∀ (a b : Option Nat), ShapeOk targetN batch e
      ⟨batch, nn * ceilDiv targetN (nn * L) * L, ceilDiv targetN (nn * L) + 1, nn, e.base, e.exp, L,
        a, b⟩ := by
    intro a b
    refine Or.inr ⟨rfl, rfl, rfl, hsl, by dsimp only; omega, ⟨k, hk⟩, by simp, ?_⟩
    calc targetN ≤ _ := hm
      _ = _ := by ring
  unfold npAssign
  dsimp only
  rw [← hL]
  have hif : ∀ (b : Bool), ShapeOk targetN batch e (if b = true then
      (if (!c.qOk) = true then
        ((⟨batch, nn * ceilDiv targetN (nn * L) * L, ceilDiv targetN (nn * L) + 1, nn, e.base, e.exp,
          L, s.1.ringQ, s.1.ringQOut⟩ : JParams), some c.size)
      else if (!c.qqOk) = true then
        (⟨batch, nn * ceilDiv targetN (nn * L) * L, ceilDiv targetN (nn * L) + 1, nn, e.base, e.exp,
          L, some nn, s.1.ringQOut⟩, some c.size)
      else (⟨batch, nn * ceilDiv targetN (nn * L) * L, ceilDiv targetN (nn * L) + 1, nn, e.base,
          e.exp, L, some nn, some nn⟩, some c.size)) else s).1 := by
    intro b
    cases b
    · exact hs
    · rw [if_pos rfl]
      split
      · exact key _ _
      · split
        · exact key _ _
        · exact key _ _
  exact hif _

/-- **C65.** For every `targetN` and every outcome of the floating-point computations: if
`NewParameters` returns, its result is either the zero `Parameters` (no candidate was feasible), or
the shape of a matrix with at least two rows that holds `targetN` coefficients. -/
theorem C65_shape {S : Type} [LT S] [DecidableLT S] (targetN batch p : Nat) (hp : 3 ≤ p) (cand : Nat → Go (Cand S)) (q : JParams)
    (h : newParameters targetN batch p cand = .ok q) :
    q = JParams.zero ∨
      (q.batch = batch ∧ q.base ^ q.exp = p - 1 ∧ q.slots * q.exp = max q.exp 256 ∧
        2 ≤ q.rows ∧ (∃ k, q.cols = 2 ^ k) ∧ q.rank = q.cols * (q.rows - 1) * q.slots ∧
        targetN ≤ q.rank) := by
  unfold newParameters at h
  split at h
  · cases h
  rename_i ht
  split at h
  · cases h
  obtain ⟨e, he, h⟩ := bind_ok_inv h
  obtain ⟨h1, h2, -, -⟩ := C61_result p hp e he
  obtain ⟨s, hs, h⟩ := bind_ok_inv h
  injection h with h
  subst h
  have key : ∀ (L : List Nat), (∀ n ∈ L, ∃ k, n = 2 ^ k) → ∀ s0 s1 : JParams × Option S,
      ShapeOk targetN batch e s0.1 →
      L.foldlM (npStep targetN batch e cand) s0 = .ok s1 → ShapeOk targetN batch e s1.1 := by
    intro L
    induction L with
    | nil => intro _ s0 s1 h0 h1; cases h1; exact h0
    | cons n L ih =>
      intro hL s0 s1 h0 h1
      rw [List.foldlM_cons] at h1
      obtain ⟨s', h3, h4⟩ := bind_ok_inv h1
      refine ih (fun x hx => hL x (by simp [hx])) s' s1 ?_ h4
      unfold npStep at h3
      obtain ⟨c, -, h3⟩ := bind_ok_inv h3
      split at h3
      · injection h3 with h3; rw [← h3]; exact h0
      · injection h3 with h3
        rw [← h3]
        exact npAssign_shape targetN batch (by omega) e h2 n (hL n (by simp)) c s0 h0
  have hfin := key _ (doublings_pow2 1 _ ⟨0, rfl⟩) _ s (Or.inl rfl) hs
  rcases hfin with h5 | ⟨h5, h6, h7, h8, h9, h10, h11, h12⟩
  · exact Or.inl h5
  · exact Or.inr ⟨h5, by rw [h6, h7]; exact h1, by rw [h7]; exact h8, h9, h10, h11, h12⟩

/-- **C65.** The shape is one on which the matrix of `C57` works. -/
theorem C65_good {S : Type} [LT S] [DecidableLT S] (targetN batch p : Nat) (hp : 3 ≤ p) (cand : Nat → Go (Cand S)) (q : JParams)
    (h : newParameters targetN batch p cand = .ok q) (h0 : q ≠ JParams.zero) :
    (MatParams.mk q.rank q.rows q.cols q.slots).Good := by
  rcases C65_shape targetN batch p hp cand q h with h1 | ⟨-, -, h1, h2, ⟨k, h3⟩, h4, -⟩
  · exact absurd h1 h0
  · refine ⟨h2, by dsimp only; rw [h3]; exact Nat.two_pow_pos k, ?_, h4⟩
    dsimp only
    by_contra h5
    rw [show q.slots = 0 by omega] at h1
    simp at h1
    have : 256 ≤ max q.exp 256 := le_max_right _ _
    omega

/-- The field of order `65537`: both candidates are feasible, and the second is smaller. -/
example : newParameters (S := ℚ) 20 3 65537 (fun n => .ok ⟨false, 100 - n, true, true⟩) =
    .ok ⟨3, 32, 2, 2, 2, 16, 16, some 2, some 2⟩ := by
  unfold newParameters
  rw [encPars_65537, go_bind_ok, show ceilDiv 20 (max (EcdParams.mk 2 16).exp 256 /
    (EcdParams.mk 2 16).exp) = 2 from rfl]
  dsimp only
  rw [show doublings 1 2 = [1, 2] by simp [doublings]]
  norm_num [npStep, npAssign, go_bind_ok, go_pure, ceilDiv, JParams.zero]

end Ringo
