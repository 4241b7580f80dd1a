import Verif.Spec.Linear
import Verif.Proof.PolyOps

/-!
# Lemmas for the linear checkers
-/

namespace Ringo

open Finset

section
variable {F : Type} [CommRing F]

theorem getD_set (l : List F) (i j : Nat) (x : F) (hi : i < l.length) :
    (l.set i x).getD j 0 = if j = i then x else l.getD j 0 := by
  rw [List.getD_eq_getElem?_getD, List.getElem?_set]
  by_cases h : i = j
  · subst h; simp [hi]
  · rw [if_neg h, if_neg (Ne.symm h), ← List.getD_eq_getElem?_getD]

theorem getD_eq {l : List F} {i : Nat} (hi : i < l.length) : l[i] = l.getD i 0 := by
  rw [List.getD_eq_getElem?_getD, List.getElem?_eq_getElem hi, Option.getD_some]

theorem getD_ge {l : List F} {i : Nat} (hi : l.length ≤ i) : l.getD i 0 = 0 := by
  rw [List.getD_eq_getElem?_getD, List.getElem?_eq_none hi, Option.getD_none]

/-- Unit vector. -/
def unitVec (N i : Nat) : List F := (List.range N).map (fun j => if j = i then 1 else 0)

theorem unitVec_getD (N i j : Nat) (hj : j < N) : (unitVec N i : List F).getD j 0 = if j = i then 1 else 0 := by
  unfold unitVec
  rw [List.getD_eq_getElem?_getD, List.getElem?_map, List.getElem?_range hj]
  rfl

theorem inner_unit (N i : Nat) (hi : i < N) (a : List F) : inner N a (unitVec N i) = a.getD i 0 := by
  unfold inner
  rw [sum_eq_single i]
  · rw [unitVec_getD _ _ _ hi, if_pos rfl, mul_one]
  · intro j hj hji
    rw [mem_range] at hj
    rw [unitVec_getD _ _ _ hj, if_neg hji, mul_zero]
  · intro h; exact absurd (mem_range.2 hi) h

theorem inner_comm (N : Nat) (a b : List F) : inner N a b = inner N b a := by
  unfold inner; exact sum_congr rfl (fun i _ => mul_comm _ _)

theorem inner_ext {N : Nat} {a b : List F} (ha : a.length = N) (hb : b.length = N)
    (h : ∀ u : List F, u.length = N → inner N a u = inner N b u) : a = b := by
  apply list_ext_getD 0 N ha hb
  intro i hi
  have := h (unitVec N i) (by simp [unitVec])
  rwa [inner_unit _ _ hi, inner_unit _ _ hi] at this

/-- The previous contents of the output slice do not matter. -/
theorem Adjoint.transform_indep {N : Nat} {L : LinearChecker F} (hL : Adjoint N L)
    (out out' v : List F) (ho : out.length = N) (ho' : out'.length = N) (hv : v.length = N) :
    L.transformTo out v = L.transformTo out' v := by
  obtain ⟨a, b, h1, -, h3, -, -⟩ := hL out out v v ho ho hv hv
  obtain ⟨a', b', h1', -, h3', -, -⟩ := hL out' out v v ho' ho hv hv
  rw [h1, h1']
  congr 1
  apply inner_ext h3 h3'
  intro u hu
  obtain ⟨c, d, c1, c2, c3, c4, c5⟩ := hL out out u v ho ho hu hv
  obtain ⟨c', d', c1', c2', c3', c4', c5'⟩ := hL out' out u v ho' ho hu hv
  rw [h1] at c1; cases c1
  rw [h1'] at c1'; cases c1'
  rw [c2] at c2'; cases c2'
  rw [c5, c5']

theorem Adjoint.transpose_indep {N : Nat} {L : LinearChecker F} (hL : Adjoint N L)
    (out out' v : List F) (ho : out.length = N) (ho' : out'.length = N) (hv : v.length = N) :
    L.transposeTo out v = L.transposeTo out' v := by
  obtain ⟨a, b, -, h1, -, h3, -⟩ := hL out out v v ho ho hv hv
  obtain ⟨a', b', -, h1', -, h3', -⟩ := hL out out' v v ho ho' hv hv
  rw [h1, h1']
  congr 1
  apply inner_ext h3 h3'
  intro u hu
  obtain ⟨c, d, c1, c2, c3, c4, c5⟩ := hL out out v u ho ho hv hu
  obtain ⟨c', d', c1', c2', c3', c4', c5'⟩ := hL out out' v u ho ho' hv hu
  rw [h1] at c2; cases c2
  rw [h1'] at c2'; cases c2'
  rw [c1] at c1'; cases c1'
  rw [inner_comm N b u, inner_comm N b' u, ← c5, ← c5']

/-! ### Zeroing loop -/

theorem zero_loop (lo hi : Nat) (hle : lo ≤ hi) (out : List F) (ho : hi ≤ out.length) :
    ∃ w, forRange lo hi 1 out (fun (o : List F) i => setIdx o i 0) = .ok w ∧ w.length = out.length ∧
      ∀ i, w.getD i 0 = if lo ≤ i ∧ i < hi then 0 else out.getD i 0 := by
  obtain ⟨w, h1, h2, h3⟩ := forRange_spec (f := fun (o : List F) i => setIdx o i 0) lo hi hle
    (fun i o => o.length = out.length ∧ ∀ k, o.getD k 0 = if lo ≤ k ∧ k < i then 0 else out.getD k 0)
    out ⟨rfl, fun k => by rw [if_neg (by omega)]⟩ (by
      rintro i o hi1 hi2 ⟨h1, h2⟩
      refine ⟨o.set i 0, setIdx_ok (by omega), by simpa using h1, fun k => ?_⟩
      rw [getD_set _ _ _ _ (by omega), h2]
      by_cases hk : k = i
      · rw [if_pos hk, if_pos (by omega)]
      · rw [if_neg hk]
        by_cases hc : lo ≤ k ∧ k < i
        · rw [if_pos hc, if_pos (by omega)]
        · rw [if_neg hc, if_neg (by omega)])
  exact ⟨w, h1, h2, h3⟩

/-! ### Projection -/

/-- Entry of the projection matrix. -/
def projAt (proj : List (List Bool)) (i j : Nat) : F :=
  if (proj.getD i []).getD j false then 1 else 0

theorem proj_row_loop (row : List Bool) (v out : List F) (i : Nat) (hi : i < out.length)
    (hr : row.length ≤ v.length) (c0 : F) (h0 : out.getD i 0 = c0) :
    ∃ w, forRange 0 row.length 1 out (fun (o : List F) j => do
        let b ← idx row j
        if b then
          let x ← idx o i
          let c ← idx v j
          setIdx o i (x + c)
        else pure o) = .ok w ∧ w.length = out.length ∧
      ∀ k, w.getD k 0 = if k = i then
        c0 + ∑ j ∈ range row.length, (if row.getD j false then 1 else 0) * v.getD j 0
        else out.getD k 0 := by
  obtain ⟨w, h1, h2, h3⟩ := forRange_spec (f := fun (o : List F) j => do
        let b ← idx row j
        if b then
          let x ← idx o i
          let c ← idx v j
          setIdx o i (x + c)
        else pure o) 0 row.length (by omega)
    (fun j o => o.length = out.length ∧ ∀ k, o.getD k 0 = if k = i then
        c0 + ∑ j ∈ range j, (if row.getD j false then 1 else 0) * v.getD j 0
        else out.getD k 0) out
    ⟨rfl, fun k => by
      by_cases hk : k = i
      · rw [if_pos hk, hk, h0]; simp
      · rw [if_neg hk]⟩ (by
      rintro j o - hj ⟨h1, h2⟩
      have hrow : row[j] = row.getD j false := by
        rw [List.getD_eq_getElem?_getD, List.getElem?_eq_getElem hj, Option.getD_some]
      simp only [idx_ok hj, go_bind_ok, hrow]
      cases hb : row.getD j false with
      | true =>
        have hio : i < o.length := by omega
        have hjv : j < v.length := by omega
        refine ⟨o.set i (o[i] + v[j]), ?_, by simpa using h1, fun k => ?_⟩
        · simp only [idx_ok hio, idx_ok hjv, go_bind_ok, setIdx_ok hio, if_true]
        · rw [getD_set _ _ _ _ hio, h2]
          by_cases hk : k = i
          · rw [if_pos hk, if_pos hk, sum_range_succ, hb, getD_eq hio, getD_eq hjv, h2, if_pos rfl]
            simp; ring
          · rw [if_neg hk, if_neg hk, if_neg hk]
      | false =>
        refine ⟨o, by simp, h1, fun k => ?_⟩
        rw [h2]
        by_cases hk : k = i
        · rw [if_pos hk, if_pos hk, sum_range_succ, hb]; simp
        · rw [if_neg hk, if_neg hk])
  exact ⟨w, h1, h2, h3⟩

theorem proj_transform (proj : List (List Bool)) (N : Nat) (hR : proj.length ≤ N)
    (hrow : ∀ r ∈ proj, r.length = N) (out v : List F) (ho : out.length = N) (hv : v.length = N) :
    ∃ w, (projChecker proj).transformTo out v = .ok w ∧ w.length = N ∧
      ∀ i < N, w.getD i 0 = if i < proj.length then ∑ j ∈ range N, projAt proj i j * v.getD j 0 else 0 := by
  obtain ⟨w0, a1, a2, a3⟩ := zero_loop 0 proj.length (by omega) out (by omega)
  obtain ⟨w1, b1, b2, b3⟩ := forRange_spec (f := fun (vOut : List F) i => do
      let row ← idx proj i
      forRange 0 row.length 1 vOut (fun (vOut : List F) j => do
        let b ← idx row j
        if b then
          let o ← idx vOut i
          let c ← idx v j
          setIdx vOut i (o + c)
        else pure vOut)) 0 proj.length (by omega)
    (fun i o => o.length = N ∧ ∀ k < proj.length, o.getD k 0 = if k < i then
      ∑ j ∈ range N, projAt proj k j * v.getD j 0 else 0) w0
    ⟨by omega, fun k hk => by rw [a3, if_pos (by omega), if_neg (by omega)]⟩ (by
      rintro i o - hi ⟨h1, h2⟩
      have hl : proj[i].length = N := hrow _ (List.getElem_mem hi)
      have hpr : proj[i] = proj.getD i [] := by
        rw [List.getD_eq_getElem?_getD, List.getElem?_eq_getElem hi, Option.getD_some]
      obtain ⟨w, c1, c2, c3⟩ := proj_row_loop proj[i] v o i (by omega) (by omega) 0
        (by rw [h2 i hi, if_neg (by omega)])
      refine ⟨w, by simp only [idx_ok hi, go_bind_ok]; exact c1, by omega, fun k hk => ?_⟩
      rw [c3]
      by_cases hki : k = i
      · subst hki
        rw [if_pos rfl, if_pos (by omega), zero_add, hl]
        unfold projAt
        rw [hpr]
      · rw [if_neg hki, h2 k hk]
        by_cases hlt : k < i
        · rw [if_pos hlt, if_pos (by omega)]
        · rw [if_neg hlt, if_neg (by omega)])
  obtain ⟨w2, d1, d2, d3⟩ := zero_loop proj.length w1.length (by omega) w1 le_rfl
  refine ⟨w2, ?_, by omega, fun i hi => ?_⟩
  · unfold projChecker
    simp only
    rw [a1, go_bind_ok, b1, go_bind_ok, d1]
  · rw [d3]
    by_cases hc : i < proj.length
    · rw [if_neg (by omega), b3 i hc, if_pos hc]
    · rw [if_pos (by omega), if_neg hc]

theorem proj_trow_loop (row : List Bool) (u out : List F) (i : Nat) (hi : i < u.length)
    (hr : row.length = out.length) :
    ∃ w, forRange 0 row.length 1 out (fun (o : List F) j => do
        let b ← idx row j
        if b then
          let x ← idx o j
          let c ← idx u i
          setIdx o j (x + c)
        else pure o) = .ok w ∧ w.length = out.length ∧
      ∀ k < row.length, w.getD k 0 = out.getD k 0 + (if row.getD k false then 1 else 0) * u.getD i 0 := by
  obtain ⟨w, h1, h2, h3⟩ := forRange_spec (f := fun (o : List F) j => do
        let b ← idx row j
        if b then
          let x ← idx o j
          let c ← idx u i
          setIdx o j (x + c)
        else pure o) 0 row.length (by omega)
    (fun j o => o.length = out.length ∧ ∀ k < row.length, o.getD k 0 = if k < j then
        out.getD k 0 + (if row.getD k false then 1 else 0) * u.getD i 0
        else out.getD k 0) out
    ⟨rfl, fun k _ => by simp⟩ (by
      rintro j o - hj ⟨h1, h2⟩
      have hrow : row[j] = row.getD j false := by
        rw [List.getD_eq_getElem?_getD, List.getElem?_eq_getElem hj, Option.getD_some]
      simp only [idx_ok hj, go_bind_ok, hrow]
      cases hb : row.getD j false with
      | true =>
        have hjo : j < o.length := by omega
        refine ⟨o.set j (o[j] + u[i]), ?_, by simpa using h1, fun k hk => ?_⟩
        · simp only [idx_ok hjo, idx_ok hi, go_bind_ok, setIdx_ok hjo, if_true]
        · rw [getD_set _ _ _ _ hjo]
          by_cases hkj : k = j
          · subst hkj
            rw [if_pos rfl, if_pos (by omega), hb, getD_eq hjo, getD_eq hi, h2 k hk, if_neg (by omega)]
            simp
          · rw [if_neg hkj, h2 k hk]
            by_cases hlt : k < j
            · rw [if_pos hlt, if_pos (show k < j + 1 by omega)]
            · rw [if_neg hlt, if_neg (show ¬ k < j + 1 by omega)]
      | false =>
        refine ⟨o, by simp, h1, fun k hk => ?_⟩
        rw [h2 k hk]
        by_cases hkj : k = j
        · subst hkj
          rw [if_neg (by omega), if_pos (by omega), hb]; simp
        · by_cases hlt : k < j
          · rw [if_pos hlt, if_pos (show k < j + 1 by omega)]
          · rw [if_neg hlt, if_neg (show ¬ k < j + 1 by omega)])
  exact ⟨w, h1, h2, fun k hk => by rw [h3 k hk, if_pos hk]⟩

theorem proj_transpose (proj : List (List Bool)) (N : Nat) (hR : proj.length ≤ N) (hR0 : 0 < proj.length)
    (hrow : ∀ r ∈ proj, r.length = N) (out u : List F) (ho : out.length = N) (hu : u.length = N) :
    ∃ w, (projChecker proj).transposeTo out u = .ok w ∧ w.length = N ∧
      ∀ j < N, w.getD j 0 = ∑ i ∈ range proj.length, projAt proj i j * u.getD i 0 := by
  have hl0 : proj[0].length = N := hrow _ (List.getElem_mem hR0)
  obtain ⟨w0, a1, a2, a3⟩ := zero_loop 0 proj[0].length (by omega) out (by omega)
  obtain ⟨w1, b1, b2, b3⟩ := forRange_spec (f := fun (vOut : List F) i => do
      let row ← idx proj i
      forRange 0 row.length 1 vOut (fun (vOut : List F) j => do
        let b ← idx row j
        if b then
          let o ← idx vOut j
          let c ← idx u i
          setIdx vOut j (o + c)
        else pure vOut)) 0 proj.length (by omega)
    (fun i o => o.length = N ∧ ∀ k < N, o.getD k 0 = ∑ i ∈ range i, projAt proj i k * u.getD i 0) w0
    ⟨by omega, fun k hk => by rw [a3, if_pos (by omega)]; simp⟩ (by
      rintro i o - hi ⟨h1, h2⟩
      have hl : proj[i].length = N := hrow _ (List.getElem_mem hi)
      have hpr : proj[i] = proj.getD i [] := by
        rw [List.getD_eq_getElem?_getD, List.getElem?_eq_getElem hi, Option.getD_some]
      obtain ⟨w, c1, c2, c3⟩ := proj_trow_loop proj[i] u o i (by omega) (by omega)
      refine ⟨w, by simp only [idx_ok hi, go_bind_ok]; exact c1, by omega, fun k hk => ?_⟩
      rw [c3 k (by omega), h2 k hk, sum_range_succ]
      unfold projAt
      rw [hpr])
  refine ⟨w1, ?_, b2, b3⟩
  unfold projChecker
  simp only
  rw [idx_ok hR0, go_bind_ok, a1, go_bind_ok, b1]

theorem proj_adjoint (proj : List (List Bool)) (N : Nat) (hR : proj.length ≤ N) (hR0 : 0 < proj.length)
    (hrow : ∀ r ∈ proj, r.length = N) : Adjoint (F := F) N (projChecker proj) := by
  intro out out' u v ho ho' hu hv
  obtain ⟨a, a1, a2, a3⟩ := proj_transform proj N hR hrow out v ho hv
  obtain ⟨b, b1, b2, b3⟩ := proj_transpose proj N hR hR0 hrow out' u ho' hu
  refine ⟨a, b, a1, b1, a2, b2, ?_⟩
  unfold inner
  have h1 : ∑ i ∈ range N, a.getD i 0 * u.getD i 0 =
      ∑ i ∈ range proj.length, a.getD i 0 * u.getD i 0 := by
    symm
    apply sum_subset (range_subset_range.2 hR)
    intro i hi hni
    rw [mem_range] at hi hni
    rw [a3 i hi, if_neg hni, zero_mul]
  rw [h1]
  have h2 : ∑ i ∈ range proj.length, a.getD i 0 * u.getD i 0 =
      ∑ i ∈ range proj.length, ∑ j ∈ range N, projAt proj i j * v.getD j 0 * u.getD i 0 := by
    apply sum_congr rfl
    intro i hi
    rw [mem_range] at hi
    rw [a3 i (by omega), if_pos hi, sum_mul]
  rw [h2, sum_comm]
  apply sum_congr rfl
  intro j hj
  rw [mem_range] at hj
  rw [b3 j hj, mul_sum]
  exact sum_congr rfl (fun i _ => by ring)

/-! ### Recomposition -/

theorem recompose_transform (base : List F) (N : Nat) (hb : 0 < base.length)
    (out v : List F) (ho : out.length = N) (hv : v.length = N) :
    ∃ w, (projRecomposeChecker base).transformTo out v = .ok w ∧ w.length = N ∧
      ∀ i < N, w.getD i 0 = if i < N / base.length then
        ∑ j ∈ range base.length, base.getD j 0 * v.getD (i * base.length + j) 0 else 0 := by
  have hnl : N / base.length ≤ N := Nat.div_le_self _ _
  have hnm : N / base.length * base.length ≤ N := Nat.div_mul_le_self _ _
  have hix : ∀ i j, i < N / base.length → j < base.length → i * base.length + j < N := by
    intro i j hi hj
    have : (i + 1) * base.length ≤ N / base.length * base.length := Nat.mul_le_mul_right _ hi
    rw [Nat.add_mul] at this; omega
  obtain ⟨w1, b1, b2, b3⟩ := forRange_spec (f := fun (vOut : List F) i => do
      let vOut ← setIdx vOut i 0
      forRange 0 base.length 1 vOut (fun (vOut : List F) j => do
        let b ← idx base j
        let c ← idx v (i * base.length + j)
        let o ← idx vOut i
        setIdx vOut i (o + b * c))) 0 (N / base.length) (Nat.zero_le _)
    (fun i o => o.length = N ∧ ∀ k < i, o.getD k 0 =
      ∑ j ∈ range base.length, base.getD j 0 * v.getD (k * base.length + j) 0) out
    ⟨by omega, fun k hk => by omega⟩ (by
      rintro i o - hi ⟨h1, h2⟩
      obtain ⟨w, c1, c2, c3⟩ := forRange_spec (f := fun (vOut : List F) j => do
        let b ← idx base j
        let c ← idx v (i * base.length + j)
        let o ← idx vOut i
        setIdx vOut i (o + b * c)) 0 base.length (by omega)
        (fun j o' => o'.length = N ∧ ∀ k, o'.getD k 0 = if k = i then
          ∑ j ∈ range j, base.getD j 0 * v.getD (i * base.length + j) 0 else o.getD k 0) (o.set i 0)
        ⟨by simpa using h1, fun k => by rw [getD_set _ _ _ _ (by omega)]; simp⟩ (by
          rintro j o' - hj ⟨e1, e2⟩
          have hv' : i * base.length + j < v.length := by rw [hv]; exact hix i j hi hj
          have hio : i < o'.length := by omega
          refine ⟨o'.set i (o'[i] + base[j] * v[i * base.length + j]), ?_, by simpa using e1, fun k => ?_⟩
          · simp only [idx_ok hj, idx_ok hv', idx_ok hio, go_bind_ok, setIdx_ok hio]
          · rw [getD_set _ _ _ _ hio, e2]
            by_cases hk : k = i
            · rw [if_pos hk, if_pos hk, sum_range_succ, getD_eq hio, e2, if_pos rfl, getD_eq hj, getD_eq hv']
            · rw [if_neg hk, if_neg hk, if_neg hk])
      refine ⟨w, ?_, c2, fun k hk => ?_⟩
      · rw [setIdx_ok (by omega), go_bind_ok, c1]
      · rw [c3]
        by_cases hki : k = i
        · rw [if_pos hki, hki]
        · rw [if_neg hki, h2 k (by omega)])
  obtain ⟨w2, d1, d2, d3⟩ := zero_loop (N / base.length) w1.length (by omega) w1 le_rfl
  refine ⟨w2, ?_, by omega, fun i hi => ?_⟩
  · unfold projRecomposeChecker
    simp only
    rw [if_neg (by omega), ho, b1, go_bind_ok, d1]
  · rw [d3]
    by_cases hc : i < N / base.length
    · rw [if_neg (by omega), b3 i hc, if_pos hc]
    · rw [if_pos (by omega), if_neg hc]

theorem recompose_transpose (base : List F) (N : Nat) (hb : 0 < base.length)
    (out u : List F) (ho : out.length = N) (hu : u.length = N) :
    ∃ w, (projRecomposeChecker base).transposeTo out u = .ok w ∧ w.length = N ∧
      (∀ i < N / base.length, ∀ j < base.length,
        w.getD (i * base.length + j) 0 = base.getD j 0 * u.getD i 0) ∧
      ∀ k < N, N / base.length * base.length ≤ k → w.getD k 0 = 0 := by
  have hnl : N / base.length ≤ N := Nat.div_le_self _ _
  have hnm : N / base.length * base.length ≤ N := Nat.div_mul_le_self _ _
  have hix : ∀ i j, i < N / base.length → j < base.length →
      i * base.length + j < N / base.length * base.length := by
    intro i j hi hj
    have : (i + 1) * base.length ≤ N / base.length * base.length := Nat.mul_le_mul_right _ hi
    rw [Nat.add_mul] at this; omega
  have hinj : ∀ i j i' j', j < base.length → j' < base.length →
      i * base.length + j = i' * base.length + j' → i = i' ∧ j = j' := by
    intro i j i' j' hj hj' he
    have h1 := congrArg (· % base.length) he
    have h2 := congrArg (· / base.length) he
    simp only [Nat.mul_comm _ base.length, Nat.mul_add_mod, Nat.mod_eq_of_lt hj, Nat.mod_eq_of_lt hj',
      Nat.mul_add_div hb, Nat.div_eq_of_lt hj, Nat.div_eq_of_lt hj'] at h1 h2
    exact ⟨by omega, h1⟩
  obtain ⟨w1, b1, b2, b3⟩ := forRange_spec (f := fun (vOut : List F) i =>
      forRange 0 base.length 1 vOut (fun (vOut : List F) j => do
        let b ← idx base j
        let c ← idx u i
        setIdx vOut (i * base.length + j) (b * c))) 0 (N / base.length) (Nat.zero_le _)
    (fun i o => o.length = N ∧ ∀ i' < i, ∀ j < base.length,
      o.getD (i' * base.length + j) 0 = base.getD j 0 * u.getD i' 0) out
    ⟨by omega, fun k hk => by omega⟩ (by
      rintro i o - hi ⟨h1, h2⟩
      obtain ⟨w, c1, c2, c3, c4⟩ := forRange_spec (f := fun (vOut : List F) j => do
        let b ← idx base j
        let c ← idx u i
        setIdx vOut (i * base.length + j) (b * c)) 0 base.length (by omega)
        (fun j o' => o'.length = N ∧ (∀ j' < j, o'.getD (i * base.length + j') 0 = base.getD j' 0 * u.getD i 0) ∧
          ∀ i' < i, ∀ j < base.length, o'.getD (i' * base.length + j) 0 = base.getD j 0 * u.getD i' 0) o
        ⟨by simpa using h1, fun j' h => by omega, h2⟩ (by
          rintro j o' - hj ⟨e1, e2, e3⟩
          have hio : i * base.length + j < o'.length := by have := hix i j hi hj; omega
          have hiu : i < u.length := by omega
          refine ⟨o'.set (i * base.length + j) (base[j] * u[i]), ?_, by simpa using e1, fun j' hj' => ?_,
            fun i' hi' j' hj' => ?_⟩
          · simp only [idx_ok hj, idx_ok hiu, go_bind_ok, setIdx_ok hio]
          · rw [getD_set _ _ _ _ hio]
            by_cases hjj : j' = j
            · subst hjj; rw [if_pos rfl, getD_eq hj, getD_eq hiu]
            · rw [if_neg (by omega), e2 j' (by omega)]
          · rw [getD_set _ _ _ _ hio, if_neg (fun he => by have := (hinj _ _ _ _ hj' hj he).1; omega),
              e3 i' hi' j' hj'])
      refine ⟨w, c1, c2, fun i' hi' j hj => ?_⟩
      by_cases hii : i' = i
      · subst hii; exact c3 j hj
      · exact c4 i' (by omega) j hj)
  obtain ⟨w2, d1, d2, d3⟩ := zero_loop (N / base.length * base.length) w1.length (by omega) w1 le_rfl
  refine ⟨w2, ?_, by omega, fun i hi j hj => ?_, fun k hk hk2 => ?_⟩
  · unfold projRecomposeChecker
    simp only
    rw [if_neg (by omega), ho, b1, go_bind_ok, d1]
  · have := hix i j hi hj
    rw [d3, if_neg (by omega), b3 i hi j hj]
  · rw [d3, if_pos (by omega)]

/-- Splitting a sum over blocks. -/
theorem sum_blocks (n L : Nat) (f : Nat → F) :
    ∑ k ∈ range (n * L), f k = ∑ i ∈ range n, ∑ j ∈ range L, f (i * L + j) := by
  induction n with
  | zero => simp
  | succ n ih => rw [Nat.add_mul, one_mul, sum_range_add, sum_range_succ, ih]

theorem recompose_adjoint (base : List F) (N : Nat) (hb : 0 < base.length) :
    Adjoint N (projRecomposeChecker base) := by
  intro out out' u v ho ho' hu hv
  obtain ⟨a, a1, a2, a3⟩ := recompose_transform base N hb out v ho hv
  obtain ⟨b, b1, b2, b3, b4⟩ := recompose_transpose base N hb out' u ho' hu
  have hnl : N / base.length ≤ N := Nat.div_le_self _ _
  have hnm : N / base.length * base.length ≤ N := Nat.div_mul_le_self _ _
  refine ⟨a, b, a1, b1, a2, b2, ?_⟩
  unfold inner
  have h1 : ∑ i ∈ range N, a.getD i 0 * u.getD i 0 =
      ∑ i ∈ range (N / base.length), a.getD i 0 * u.getD i 0 := by
    symm
    apply sum_subset (range_subset_range.2 hnl)
    intro i hi hni
    rw [mem_range] at hi hni
    rw [a3 i hi, if_neg hni, zero_mul]
  have h2 : ∑ i ∈ range N, v.getD i 0 * b.getD i 0 =
      ∑ i ∈ range (N / base.length * base.length), v.getD i 0 * b.getD i 0 := by
    symm
    apply sum_subset (range_subset_range.2 hnm)
    intro i hi hni
    rw [mem_range] at hi hni
    rw [b4 i hi (by omega), mul_zero]
  rw [h1, h2, sum_blocks]
  apply sum_congr rfl
  intro i hi
  rw [mem_range] at hi
  rw [a3 i (by omega), if_pos hi, sum_mul]
  apply sum_congr rfl
  intro j hj
  rw [mem_range] at hj
  rw [b3 i hi j hj]; ring

end

end Ringo
