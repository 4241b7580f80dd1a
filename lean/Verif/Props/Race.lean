import Verif.Model.Race
import Mathlib.Tactic.Ring
import Mathlib.Data.List.GetD

/-!
# C51: the prover and the verifier share the projection matrix
-/

namespace Ringo

/-- The matrix that a call with the values `r` of its reads has seen. -/
def seenMatrix (rank : Nat) (r : List Bool) : List (List Bool) :=
  (List.range 128).map (fun i => (List.range rank).map (fun j => r.getD (i * rank + j) false))

/-- The shared matrix after some accesses. -/
def stateAfter (s : List (Bool × ProjAct)) (m : Nat → Nat → Bool) : Nat → Nat → Bool :=
  s.foldl (fun m x => x.2.next m) m

theorem readsBy_append (t : Bool) (s s' : List (Bool × ProjAct)) (m : Nat → Nat → Bool) :
    readsBy t (s ++ s') m = readsBy t s m ++ readsBy t s' (stateAfter s m) := by
  induction s generalizing m with
  | nil => rfl
  | cons x s ih =>
    obtain ⟨t', a⟩ := x
    simp only [List.cons_append, readsBy, ih, stateAfter, List.foldl_cons, List.append_assoc]

theorem stateAfter_append (s s' : List (Bool × ProjAct)) (m : Nat → Nat → Bool) :
    stateAfter (s ++ s') m = stateAfter s' (stateAfter s m) := by
  unfold stateAfter; rw [List.foldl_append]

/-- Writes of a matrix, in any order that covers a set of cells. -/
theorem stateAfter_writes (t : Bool) (v : Nat → Nat → Bool) (cells : List (Nat × Nat))
    (m : Nat → Nat → Bool) (i j : Nat) :
    stateAfter (cells.map (fun c => (t, ProjAct.write c.1 c.2 (v c.1 c.2)))) m i j =
      if (i, j) ∈ cells then v i j else m i j := by
  induction cells generalizing m with
  | nil => simp [stateAfter]
  | cons c cells ih =>
    have : stateAfter ((c :: cells).map (fun c => (t, ProjAct.write c.1 c.2 (v c.1 c.2)))) m =
        stateAfter (cells.map (fun c => (t, ProjAct.write c.1 c.2 (v c.1 c.2))))
          ((ProjAct.write c.1 c.2 (v c.1 c.2)).next m) := rfl
    rw [this, ih]
    by_cases h : (i, j) ∈ cells
    · simp [h]
    · by_cases hc : (i, j) = c
      · subst hc; simp [ProjAct.next]
      · have : ¬ (i = c.1 ∧ j = c.2) := fun hh => hc (Prod.ext hh.1 hh.2)
        rw [if_neg h, if_neg (by simp [h, hc])]
        simp [ProjAct.next, this]

/-- The cells in the order of `projWrites`. -/
def wcells (rank : Nat) : List (Nat × Nat) :=
  (List.range rank).flatMap (fun j => (List.range 128).map (fun i => (i, j)))

theorem projWrites_eq (rank : Nat) (proj : List (List Bool)) :
    projWrites rank proj = (wcells rank).map (fun c =>
      ProjAct.write c.1 c.2 ((proj.getD c.1 []).getD c.2 false)) := by
  unfold projWrites wcells
  rw [List.map_flatMap]
  simp [List.map_map, Function.comp_def]

theorem mem_wcells {rank i j : Nat} : (i, j) ∈ wcells rank ↔ i < 128 ∧ j < rank := by
  unfold wcells
  simp [List.mem_flatMap]
  tauto

theorem state_writes (t : Bool) (rank : Nat) (proj : List (List Bool)) (m : Nat → Nat → Bool) (i j : Nat)
    (hi : i < 128) (hj : j < rank) :
    stateAfter ((projWrites rank proj).map (fun a => (t, a))) m i j = (proj.getD i []).getD j false := by
  rw [projWrites_eq, List.map_map]
  have := stateAfter_writes t (fun i j => (proj.getD i []).getD j false) (wcells rank) m i j
  rw [if_pos (mem_wcells.2 ⟨hi, hj⟩)] at this
  exact this

theorem reads_none (t : Bool) (rank : Nat) (proj : List (List Bool)) (t' : Bool) (m : Nat → Nat → Bool) :
    readsBy t ((projWrites rank proj).map (fun a => (t', a))) m = [] := by
  rw [projWrites_eq, List.map_map]
  generalize wcells rank = cells
  induction cells generalizing m with
  | nil => rfl
  | cons c cells ih =>
    simp only [List.map_cons, readsBy, Function.comp_apply, ProjAct.value, Option.toList_none,
      ite_self, List.nil_append]
    exact ih _

theorem readsBy_other (t t' : Bool) (h : t' ≠ t) (l : List ProjAct) (m : Nat → Nat → Bool) :
    readsBy t (l.map (fun a => (t', a))) m = [] := by
  induction l generalizing m with
  | nil => rfl
  | cons a l ih => simp only [List.map_cons, readsBy, if_neg h, List.nil_append]; exact ih _

theorem readsBy_reads (t : Bool) (cells : List (Nat × Nat)) (m : Nat → Nat → Bool) :
    readsBy t (cells.map (fun c => (t, ProjAct.read c.1 c.2))) m = cells.map (fun c => m c.1 c.2) := by
  induction cells with
  | nil => rfl
  | cons c cells ih =>
    simp only [List.map_cons, readsBy, if_true, ProjAct.value, Option.toList_some, ProjAct.next,
      List.singleton_append]
    rw [ih]

theorem stateAfter_reads (t : Bool) (cells : List (Nat × Nat)) (m : Nat → Nat → Bool) :
    stateAfter (cells.map (fun c => (t, ProjAct.read c.1 c.2))) m = m := by
  induction cells with
  | nil => rfl
  | cons c cells ih => exact ih

/-- The cells in the order of `projReads`. -/
def rcells (rank : Nat) : List (Nat × Nat) :=
  (List.range 128).flatMap (fun i => (List.range rank).map (fun j => (i, j)))

theorem projReads_eq (rank : Nat) :
    projReads rank = (rcells rank).map (fun c => ProjAct.read c.1 c.2) := by
  unfold projReads rcells
  rw [List.map_flatMap]
  simp [List.map_map, Function.comp_def]

theorem flat_getD (n rank : Nat) (f : Nat → Nat → Bool) (i j : Nat) (hi : i < n) (hj : j < rank) :
    ((List.range n).flatMap (fun i => (List.range rank).map (fun j => f i j))).getD (i * rank + j) false =
      f i j := by
  induction n with
  | zero => omega
  | succ n ih =>
    rw [List.range_succ, List.flatMap_append]
    have hlen : ((List.range n).flatMap (fun i => (List.range rank).map (fun j => f i j))).length =
        n * rank := by
      clear ih hi
      induction n with
      | zero => simp
      | succ n ih =>
        rw [List.range_succ, List.flatMap_append, List.length_append, ih]
        simp; ring
    rcases Nat.lt_or_ge i n with h | h
    · rw [List.getD_append _ _ _ _ (by
        rw [hlen]
        calc i * rank + j < i * rank + rank := by omega
          _ = (i + 1) * rank := by ring
          _ ≤ n * rank := Nat.mul_le_mul_right _ h)]
      exact ih h
    · have : i = n := by omega
      subst this
      rw [List.getD_append_right _ _ _ _ (by rw [hlen]; omega), hlen, Nat.add_sub_cancel_left]
      simp [List.getD_eq_getElem?_getD, hj]

theorem seenMatrix_of (rank : Nat) (m : Nat → Nat → Bool) (proj : List (List Bool))
    (hl : proj.length = 128) (hr : ∀ r ∈ proj, r.length = rank)
    (h : ∀ i < 128, ∀ j < rank, m i j = (proj.getD i []).getD j false) :
    seenMatrix rank ((rcells rank).map (fun c => m c.1 c.2)) = proj := by
  have he : (rcells rank).map (fun c => m c.1 c.2) =
      (List.range 128).flatMap (fun i => (List.range rank).map (fun j => m i j)) := by
    unfold rcells
    rw [List.map_flatMap]
    simp [List.map_map, Function.comp_def]
  rw [he]
  unfold seenMatrix
  apply List.ext_getElem (by simp [hl])
  intro i h1 h2
  have hi : i < 128 := by simpa using h1
  have hpi : proj.getD i [] = proj[i] := by rw [List.getD_eq_getElem _ _ h2]
  rw [List.getElem_map, List.getElem_range]
  apply List.ext_getElem (by simp [hr proj[i] (List.getElem_mem h2)])
  intro j h3 h4
  have hj : j < rank := by simpa using h3
  rw [List.getElem_map, List.getElem_range, flat_getD 128 rank m i j hi hj, h i hi j hj, hpi,
    List.getD_eq_getElem _ _ h4]

/-- Accesses of the verifier that are only reads do not disturb the prover. -/
theorem readsBy_noWrites (s : List (Bool × ProjAct))
    (h : ∀ x ∈ s, x.1 = false → ∃ i j, x.2 = .read i j) (m : Nat → Nat → Bool) :
    readsBy true s m = readsBy true (((s.filter (fun x => x.1)).map (·.2)).map (fun a => (true, a))) m := by
  induction s generalizing m with
  | nil => rfl
  | cons x s ih =>
    obtain ⟨t, a⟩ := x
    cases t with
    | true =>
      simp only [List.filter_cons_of_pos, List.map_cons, readsBy]
      rw [ih (fun y hy => h y (by simp [hy]))]
    | false =>
      obtain ⟨i, j, rfl⟩ := h (false, a) (by simp) rfl
      rw [List.filter_cons_of_neg (by simp)]
      simp only [readsBy, Bool.false_eq_true, if_false, List.nil_append, ProjAct.next]
      exact ih (fun y hy => h y (by simp [hy])) m

/-- **C51, partial.**  If the prover's accesses fall in a stretch of the schedule in which the verifier
does not write - in particular if the calls run one after the other - the prover uses its own
matrix.  (By symmetry the same holds for the verifier.) -/
theorem C51_partial (rank : Nat) (P M : List (List Bool)) (hl : P.length = 128)
    (hr : ∀ r ∈ P, r.length = rank) (m : Nat → Nat → Bool) (s1 s2 s3 : List (Bool × ProjAct))
    (h : Interleaves (s1 ++ s2 ++ s3) (projRun rank P) (projRun rank M))
    (h1 : ∀ x ∈ s1, x.1 = false) (h3 : ∀ x ∈ s3, x.1 = false)
    (h2 : ∀ x ∈ s2, x.1 = false → ∃ i j, x.2 = .read i j) :
    seenMatrix rank (readsBy true (s1 ++ s2 ++ s3) m) = P := by
  have ho : ∀ (s : List (Bool × ProjAct)) (m : Nat → Nat → Bool), (∀ x ∈ s, x.1 = false) →
      readsBy true s m = [] := by
    intro s
    induction s with
    | nil => intro m _; rfl
    | cons x s ih =>
      intro m hx
      obtain ⟨t, a⟩ := x
      have : t = false := hx (t, a) (by simp)
      subst this
      simp only [readsBy, Bool.false_eq_true, if_false, List.nil_append]
      exact ih _ (fun y hy => hx y (by simp [hy]))
  have hf : ∀ (s : List (Bool × ProjAct)), (∀ x ∈ s, x.1 = false) → s.filter (fun x => x.1) = [] := by
    intro s hs
    rw [List.filter_eq_nil_iff]
    intro x hx; simp [hs x hx]
  have hs2 : (s2.filter (fun x => x.1)).map (·.2) = projRun rank P := by
    have := h.1
    rwa [List.filter_append, List.filter_append, hf s1 h1, hf s3 h3, List.nil_append,
      List.append_nil] at this
  rw [readsBy_append, readsBy_append, ho s1 _ h1, ho s3 _ h3, List.nil_append, List.append_nil,
    readsBy_noWrites s2 h2, hs2]
  unfold projRun
  rw [List.map_append, readsBy_append, reads_none, List.nil_append, projReads_eq, List.map_map]
  have := readsBy_reads true (rcells rank)
    (stateAfter ((projWrites rank P).map (fun a => (true, a))) (stateAfter s1 m))
  simp only [Function.comp_def]
  rw [this]
  exact seenMatrix_of rank _ P hl hr (fun i hi j hj => state_writes true rank P _ i j hi hj)

/-- **C51 fails.**  For every two matrices there is an interleaving of a call of `Prove` that draws the
matrix `P` and a call of `Verify` that draws `M` in which the prover projects its witnesses with `M`,
the verifier's matrix.  Whenever the two proofs being made and checked differ, so do the matrices. -/
theorem C51_refuted (rank : Nat) (P M : List (List Bool)) (hl : M.length = 128)
    (hr : ∀ r ∈ M, r.length = rank) (m : Nat → Nat → Bool) :
    ∃ s, Interleaves s (projRun rank P) (projRun rank M) ∧
      seenMatrix rank (readsBy true s m) = M := by
  refine ⟨(projWrites rank P).map (fun a => (true, a)) ++ ((projWrites rank M).map (fun a => (false, a)) ++
    ((projReads rank).map (fun a => (true, a)) ++ (projReads rank).map (fun a => (false, a)))), ?_, ?_⟩
  · unfold Interleaves projRun
    simp [List.filter_append, List.filter_map, Function.comp_def]
  · rw [readsBy_append, readsBy_append, readsBy_append, reads_none, reads_none,
      readsBy_other true false (by simp), List.nil_append, List.nil_append, List.append_nil,
      projReads_eq, List.map_map]
    have := readsBy_reads true (rcells rank)
      (stateAfter ((projWrites rank M).map (fun a => (false, a)))
        (stateAfter ((projWrites rank P).map (fun a => (true, a))) m))
    simp only [Function.comp_def]
    rw [this]
    exact seenMatrix_of rank _ M hl hr (fun i hi j hj => state_writes false rank M _ i j hi hj)

/-- The hypotheses are met by the matrices drawn from any seed. -/
example (xof : Bytes → Nat → UInt8) (seed : Bytes) (rank : Nat) :
    (projMatrix xof seed rank).length = 128 ∧ ∀ r ∈ projMatrix xof seed rank, r.length = rank := by
  constructor
  · simp [projMatrix]
  · intro r hr
    simp only [projMatrix, List.mem_map] at hr
    obtain ⟨i, -, rfl⟩ := hr
    simp

/-- Calls one after the other meet the hypotheses of `C51_partial`. -/
example (rank : Nat) (P M : List (List Bool)) :
    Interleaves ([] ++ (projRun rank P).map (fun a => (true, a)) ++ (projRun rank M).map (fun a => (false, a)))
      (projRun rank P) (projRun rank M) := by
  unfold Interleaves
  simp [List.filter_append, List.filter_map, Function.comp_def]

end Ringo
