import Verif.Proof.FieldVec
import Mathlib.Algebra.BigOperators.Group.Finset.Basic
import Mathlib.Algebra.Order.BigOperators.Group.Finset

/-! The tasks of `AsyncReadFrom`. -/

namespace Ringo

open FieldPkg

theorem executeLoop_flat (per : Nat) : ∀ k i x o : Nat,
    (executeLoop per k i x o).flatMap (fun r => List.range' r.1 (r.2 - r.1)) =
      List.range' (i * per + o) (k * per + min x k) := by
  intro k
  induction k with
  | zero => intro i x o; simp [executeLoop]
  | succ k ih =>
    intro i x o
    rw [executeLoop]
    split
    · rw [List.flatMap_cons, ih]
      have e : i * per + o + per + 1 - (i * per + o) = per + 1 := by omega
      have e2 : (i + 1) * per + (o + 1) = i * per + o + (per + 1) := by ring
      have e3 : (k + 1) * per + min x (k + 1) = (per + 1) + (k * per + min (x - 1) k) := by
        have : min x (k + 1) = min (x - 1) k + 1 := by omega
        rw [this]; ring
      rw [e, e2, e3, List.range'_append_1]
    · rw [List.flatMap_cons, ih]
      have e : i * per + o + per - (i * per + o) = per := by omega
      have e2 : (i + 1) * per + o = i * per + o + per := by ring
      have e3 : (k + 1) * per + min x (k + 1) = per + (k * per + min x k) := by
        have : min x (k + 1) = min x k := by omega
        rw [this]; ring
      rw [e, e2, e3, List.range'_append_1]

theorem executeRanges_flat {tasks : Nat} (ht : 1 ≤ tasks) (n : Nat) :
    (executeRanges tasks n).flatMap (fun r => List.range' r.1 (r.2 - r.1)) = List.range n := by
  unfold executeRanges
  split
  · simp [List.range_eq_range']
  · dsimp only
    rw [executeLoop_flat, List.range_eq_range']
    by_cases hp : n / tasks < 1
    · rw [if_pos hp]; simp
    · rw [if_neg hp]
      have h1 := Nat.div_add_mod n tasks
      have h2 := Nat.mod_lt n ht
      have h3 : n - tasks * (n / tasks) = n % tasks := by omega
      dsimp only
      rw [h3, Nat.min_eq_left h2.le, h1]
      simp

theorem executeLoop_size (per : Nat) : ∀ k i x o : Nat, (executeLoop per k i x o).length = k ∧
    ∀ r ∈ executeLoop per k i x o, r.2 = r.1 + per ∨ r.2 = r.1 + per + 1 := by
  intro k
  induction k with
  | zero => intro i x o; simp [executeLoop]
  | succ k ih =>
    intro i x o
    rw [executeLoop]
    split
    · refine ⟨by rw [List.length_cons, (ih _ _ _).1], fun r hr => ?_⟩
      rcases List.mem_cons.1 hr with rfl | hr
      · exact Or.inr rfl
      · exact (ih _ _ _).2 r hr
    · refine ⟨by rw [List.length_cons, (ih _ _ _).1], fun r hr => ?_⟩
      rcases List.mem_cons.1 hr with rfl | hr
      · exact Or.inl rfl
      · exact (ih _ _ _).2 r hr

namespace FieldPkg

variable (P : FieldPkg)

/-- The words a task reads of an element. -/
def cellZ (c : List Nat) : List Nat := (List.range P.n).map fun i => getBE (memBytes c) (8 * (P.n - 1 - i))

/-- The invariant of the goroutine. -/
structure AsyncInv (R : List (Nat × Nat)) (v : List (List Nat)) (s : AsyncSt) (p : Nat → Nat) (hf : Nat → Bool) :
    Prop where
  len : s.vec.length = v.length
  wlen : s.ws.length = R.length
  errs : s.errs = ∑ t ∈ Finset.range R.length, if hf t then 1 else 0
  lo : ∀ (t : Nat) (r : Nat × Nat), R[t]? = some r → r.1 ≤ p t ∧ p t ≤ r.2
  good : ∀ (t : Nat) (r : Nat × Nat), R[t]? = some r → ∀ i, r.1 ≤ i → i < p t → P.smaller (P.cellZ (v.getD i [])) = true
  conv : ∀ (t : Nat) (r : Nat × Nat), R[t]? = some r → ∀ i, r.1 ≤ i → i < p t → s.vec.getD i [] = P.toMont (P.cellZ (v.getD i []))
  raw : ∀ (t : Nat) (r : Nat × Nat), R[t]? = some r → ∀ i, p t ≤ i → i < r.2 → s.vec.getD i [] = v.getD i []
  run : ∀ (t : Nat) (r : Nat × Nat), R[t]? = some r → hf t = false → s.ws[t]? = some ⟨p t, r.2⟩
  halt : ∀ (t : Nat) (r : Nat × Nat), R[t]? = some r → hf t = true → s.ws[t]? = some ⟨r.2, r.2⟩ ∧ p t < r.2 ∧
    P.smaller (P.cellZ (v.getD (p t) [])) = false

variable {P}

theorem sum_flag {n t : Nat} (ht : t < n) {hf : Nat → Bool} (h : hf t = false) :
    (∑ u ∈ Finset.range n, if Function.update hf t true u then 1 else 0) =
      (∑ u ∈ Finset.range n, if hf u then 1 else 0) + 1 := by
  have hm : t ∈ Finset.range n := Finset.mem_range.2 ht
  rw [← Finset.add_sum_erase _ _ hm, ← Finset.add_sum_erase (Finset.range n) (fun u => if hf u then 1 else 0) hm]
  rw [Function.update_self, h, if_pos rfl]
  have : ∑ u ∈ (Finset.range n).erase t, (if Function.update hf t true u then 1 else 0) =
      ∑ u ∈ (Finset.range n).erase t, if hf u then 1 else 0 := by
    apply Finset.sum_congr rfl
    intro u hu
    rw [Function.update_of_ne (Finset.ne_of_mem_erase hu)]
  rw [this]
  simp [Nat.add_comm]

theorem AsyncInv.step {R : List (Nat × Nat)} {v : List (List Nat)} {s : AsyncSt} {p : Nat → Nat} {hf : Nat → Bool}
    (hR : ∀ (t : Nat) (r : Nat × Nat) (u : Nat) (q : Nat × Nat), R[t]? = some r → R[u]? = some q → ∀ i : Nat, r.1 ≤ i → i < r.2 → q.1 ≤ i → i < q.2 → t = u)
    (hb : ∀ (t : Nat) (r : Nat × Nat), R[t]? = some r → r.2 ≤ v.length) (h : P.AsyncInv R v s p hf) (t : Nat) :
    ∃ p' hf', P.AsyncInv R v (P.asyncStep s t) p' hf' := by
  unfold asyncStep
  cases hw : s.ws[t]? with
  | none => exact ⟨p, hf, h⟩
  | some w =>
    dsimp only
    have htl : t < R.length := by
      rw [← h.wlen]
      exact (List.getElem?_eq_some_iff.1 hw).1
    obtain ⟨r, hr⟩ : ∃ r, R[t]? = some r := ⟨_, List.getElem?_eq_getElem htl⟩
    by_cases hpos : w.pos < w.stop
    · rw [if_pos hpos]
      have hft : hf t = false := by
        by_contra hx
        have := (h.halt t r hr (by simpa using hx)).1
        rw [hw, Option.some.injEq] at this
        subst this
        exact absurd hpos (lt_irrefl _)
      have hw2 := h.run t r hr hft
      rw [hw, Option.some.injEq] at hw2
      subst hw2
      dsimp only at hpos ⊢
      have hlo := h.lo t r hr
      have hraw := h.raw t r hr (p t) le_rfl hpos
      have hz : (List.range P.n).map (fun i => getBE (memBytes (s.vec.getD (p t) [])) (8 * (P.n - 1 - i))) =
          P.cellZ (v.getD (p t) []) := by rw [hraw]; rfl
      rw [hz]
      have hws : ∀ (x : Worker) u, u ≠ t → (s.ws.set t x)[u]? = s.ws[u]? := fun x u hu =>
        List.getElem?_set_ne hu.symm
      have hwt : ∀ (x : Worker), (s.ws.set t x)[t]? = some x := fun x =>
        List.getElem?_set_self (by rw [h.wlen]; exact htl)
      split
      · rename_i hbad
        refine ⟨p, Function.update hf t true, ⟨h.len, by simp [h.wlen], ?_, h.lo, h.good, h.conv, h.raw, ?_, ?_⟩⟩
        · dsimp only
          rw [sum_flag htl hft, h.errs]
        · intro u q hq hu
          by_cases hut : u = t
          · subst hut; simp at hu
          · rw [Function.update_of_ne hut] at hu
            rw [hws _ u hut]
            exact h.run u q hq hu
        · intro u q hq hu
          by_cases hut : u = t
          · subst hut
            rw [hr, Option.some.injEq] at hq
            subst hq
            exact ⟨hwt _, hpos, by simpa using hbad⟩
          · rw [Function.update_of_ne hut] at hu
            rw [hws _ u hut]
            exact h.halt u q hq hu
      · rename_i hgood
        have hgood : P.smaller (P.cellZ (v.getD (p t) [])) = true := by simpa using hgood
        have hvl : p t < s.vec.length := by rw [h.len]; exact lt_of_lt_of_le hpos (hb t r hr)
        have hset : ∀ i, (s.vec.set (p t) (P.toMont (P.cellZ (v.getD (p t) [])))).getD i [] =
            if i = p t then P.toMont (P.cellZ (v.getD (p t) [])) else s.vec.getD i [] := by
          intro i
          by_cases hi : i = p t
          · subst hi
            simp [List.getD, List.getElem?_set_self hvl]
          · simp only [List.getD, if_neg hi, List.getElem?_set_ne (Ne.symm hi)]
        refine ⟨Function.update p t (p t + 1), hf, ⟨by simp [h.len], by simp [h.wlen], h.errs, ?_, ?_, ?_, ?_, ?_, ?_⟩⟩
        · intro u q hq
          by_cases hut : u = t
          · subst hut
            rw [hr, Option.some.injEq] at hq
            subst hq
            rw [Function.update_self]
            omega
          · rw [Function.update_of_ne hut]; exact h.lo u q hq
        · intro u q hq i h1 h2
          by_cases hut : u = t
          · subst hut
            rw [hr, Option.some.injEq] at hq
            subst hq
            rw [Function.update_self] at h2
            rcases Nat.lt_succ_iff_lt_or_eq.1 h2 with h2 | rfl
            · exact h.good u _ hr i h1 h2
            · exact hgood
          · rw [Function.update_of_ne hut] at h2; exact h.good u q hq i h1 h2
        · intro u q hq i h1 h2
          dsimp only
          rw [hset]
          by_cases hut : u = t
          · subst hut
            rw [hr, Option.some.injEq] at hq
            subst hq
            rw [Function.update_self] at h2
            rcases Nat.lt_succ_iff_lt_or_eq.1 h2 with h2 | rfl
            · rw [if_neg (by omega)]; exact h.conv u _ hr i h1 h2
            · rw [if_pos rfl]
          · rw [Function.update_of_ne hut] at h2
            rw [if_neg]
            · exact h.conv u q hq i h1 h2
            · rintro rfl
              exact hut (hR u q t r hq hr (p t) h1 (lt_of_lt_of_le h2 (h.lo u q hq).2) hlo.1 hpos)
        · intro u q hq i h1 h2
          dsimp only
          rw [hset]
          by_cases hut : u = t
          · subst hut
            rw [hr, Option.some.injEq] at hq
            subst hq
            rw [Function.update_self] at h1
            rw [if_neg (by omega)]
            exact h.raw u _ hr i (by omega) h2
          · rw [Function.update_of_ne hut] at h1
            rw [if_neg]
            · exact h.raw u q hq i h1 h2
            · rintro rfl
              exact hut (hR u q t r hq hr (p t) ((h.lo u q hq).1.trans h1) h2 hlo.1 hpos)
        · intro u q hq hu
          by_cases hut : u = t
          · subst hut
            rw [hr, Option.some.injEq] at hq
            subst hq
            rw [Function.update_self]
            exact hwt _
          · rw [Function.update_of_ne hut]
            dsimp only
            rw [hws _ u hut]
            exact h.run u q hq hu
        · intro u q hq hu
          by_cases hut : u = t
          · subst hut; rw [hft] at hu; cases hu
          · rw [Function.update_of_ne hut]
            dsimp only
            rw [hws _ u hut]
            exact h.halt u q hq hu
    · rw [if_neg hpos]; exact ⟨p, hf, h⟩

theorem AsyncInv.run' {R : List (Nat × Nat)} {v : List (List Nat)}
    (hR : ∀ (t : Nat) (r : Nat × Nat) (u : Nat) (q : Nat × Nat), R[t]? = some r → R[u]? = some q → ∀ i : Nat, r.1 ≤ i → i < r.2 → q.1 ≤ i → i < q.2 → t = u)
    (hb : ∀ (t : Nat) (r : Nat × Nat), R[t]? = some r → r.2 ≤ v.length) : ∀ (sched : List Nat) (s : AsyncSt) (p : Nat → Nat)
    (hf : Nat → Bool), P.AsyncInv R v s p hf → ∃ p' hf', P.AsyncInv R v (sched.foldl P.asyncStep s) p' hf' := by
  intro sched
  induction sched with
  | nil => intro s p hf h; exact ⟨p, hf, h⟩
  | cons t sched ih =>
    intro s p hf h
    obtain ⟨p', hf', h'⟩ := h.step hR hb t
    exact ih _ p' hf' h'

theorem range_disjoint {R : List (Nat × Nat)} {n : Nat}
    (h : R.flatMap (fun r => List.range' r.1 (r.2 - r.1)) = List.range n) :
    ∀ (t : Nat) (r : Nat × Nat) (u : Nat) (q : Nat × Nat), R[t]? = some r → R[u]? = some q → ∀ i : Nat, r.1 ≤ i → i < r.2 → q.1 ≤ i → i < q.2 → t = u := by
  have hn : (R.flatMap (fun r => List.range' r.1 (r.2 - r.1))).Nodup := h ▸ List.nodup_range
  have hp := (List.nodup_flatMap.1 hn).2
  have key : ∀ (t : Nat) (r : Nat × Nat) (u : Nat) (q : Nat × Nat), R[t]? = some r → R[u]? = some q → ∀ i : Nat, r.1 ≤ i → i < r.2 → q.1 ≤ i → i < q.2 → ¬ t < u := by
    intro t r u q ht hu i h1 h2 h3 h4 hlt
    obtain ⟨ht1, ht2⟩ := List.getElem?_eq_some_iff.1 ht
    obtain ⟨hu1, hu2⟩ := List.getElem?_eq_some_iff.1 hu
    have := List.pairwise_iff_getElem.1 hp t u ht1 hu1 hlt
    simp only [Function.onFun] at this
    rw [ht2, hu2] at this
    exact this (a := i) (List.mem_range'_1.2 ⟨h1, by omega⟩) (List.mem_range'_1.2 ⟨h3, by omega⟩)
  intro t r u q ht hu i h1 h2 h3 h4
  have k1 := key t r u q ht hu i h1 h2 h3 h4
  have k2 := key u q t r hu ht i h3 h4 h1 h2
  omega

theorem executeRanges_le {tasks n : Nat} (ht : 1 ≤ tasks) : ∀ r ∈ executeRanges tasks n, r.1 ≤ r.2 ∧ r.2 ≤ n := by
  intro r hr
  have hle : r.1 ≤ r.2 := by
    unfold executeRanges at hr
    split at hr
    · rw [List.mem_singleton.1 hr]; exact Nat.zero_le _
    · rcases (executeLoop_size _ _ _ _ _).2 r hr with h | h <;> omega
  refine ⟨hle, ?_⟩
  by_contra hx
  have hpos : r.1 < r.2 ∨ r.1 = r.2 := by omega
  rcases hpos with hpos | hpos
  · have : r.2 - 1 ∈ List.range n := by
      rw [← executeRanges_flat ht n]
      exact List.mem_flatMap.2 ⟨r, hr, List.mem_range'_1.2 ⟨by omega, by omega⟩⟩
    have := List.mem_range.1 this
    omega
  · -- an empty range occurs only for no elements
    unfold executeRanges at hr
    split at hr
    · rw [List.mem_singleton.1 hr] at hx; exact hx le_rfl
    · dsimp only at hr
      by_cases hp : n / tasks < 1
      · rw [if_pos hp] at hr
        rcases (executeLoop_size _ _ _ _ _).2 r hr with h | h <;> omega
      · rw [if_neg hp] at hr
        rcases (executeLoop_size _ _ _ _ _).2 r hr with h | h <;> dsimp only at h <;> omega

/-- What the goroutine leaves when all tasks have returned, whatever their order. -/
theorem asyncRun_done {tasks n : Nat} (ht : 1 ≤ tasks) {v : List (List Nat)} (hv : v.length = n)
    (sched : List Nat) (hd : (P.asyncRun tasks v n sched).Done) :
    (P.asyncRun tasks v n sched).vec.length = n ∧
    ((P.asyncRun tasks v n sched).errs = 0 ↔ ∀ i < n, P.smaller (P.cellZ (v.getD i [])) = true) ∧
    (P.asyncRun tasks v n sched).errs =
      ((executeRanges tasks n).filter fun r => (List.range' r.1 (r.2 - r.1)).any fun i =>
        !P.smaller (P.cellZ (v.getD i []))).length ∧
    ∀ r ∈ executeRanges tasks n, ∀ i, r.1 ≤ i → i < r.2 →
      (P.asyncRun tasks v n sched).vec.getD i [] =
        if (List.range' r.1 (i + 1 - r.1)).all fun j => P.smaller (P.cellZ (v.getD j [])) then
          P.toMont (P.cellZ (v.getD i [])) else v.getD i [] := by
  have hflat := executeRanges_flat ht n
  set R := executeRanges tasks n with hRdef
  have hle : ∀ (t : Nat) (r : Nat × Nat), R[t]? = some r → r.1 ≤ r.2 ∧ r.2 ≤ n := fun t r h =>
    executeRanges_le ht r (List.mem_of_getElem? h)
  have hinit : P.AsyncInv R v ⟨v, 0, R.map fun r => ⟨r.1, r.2⟩⟩ (fun t => (R.getD t (0, 0)).1) (fun _ => false) := by
    refine ⟨rfl, by simp, by simp, ?_, ?_, ?_, ?_, ?_, ?_⟩
    · intro t r h; simp only [List.getD, h, Option.getD_some]; exact ⟨le_rfl, (hle t r h).1⟩
    · intro t r h i h1 h2; simp only [List.getD, h, Option.getD_some] at h2; omega
    · intro t r h i h1 h2; simp only [List.getD, h, Option.getD_some] at h2; omega
    · intro t r h i _ _; rfl
    · intro t r h _; simp [List.getD, h]
    · intro t r h hx; cases hx
  obtain ⟨p, hf, hI⟩ := AsyncInv.run' (range_disjoint hflat) (fun t r h => hv ▸ (hle t r h).2) sched _ _ _ hinit
  change P.AsyncInv R v (P.asyncRun tasks v n sched) p hf at hI
  have hend : ∀ (t : Nat) (r : Nat × Nat), R[t]? = some r → hf t = false → p t = r.2 := by
    intro t r hr hx
    have h1 := hI.run t r hr hx
    have h2 := hd _ (List.mem_of_getElem? h1)
    have h3 := (hI.lo t r hr).2
    dsimp only at h2
    omega
  have hiff : ∀ (t : Nat) (r : Nat × Nat), R[t]? = some r →
      (hf t = true ↔ (List.range' r.1 (r.2 - r.1)).any (fun i => !P.smaller (P.cellZ (v.getD i []))) = true) := by
    intro t r hr
    rw [List.any_eq_true]
    constructor
    · intro hx
      obtain ⟨_, h2, h3⟩ := hI.halt t r hr hx
      exact ⟨p t, List.mem_range'_1.2 ⟨(hI.lo t r hr).1, by omega⟩, by rw [h3]; rfl⟩
    · rintro ⟨i, hi, hb⟩
      by_contra hx
      have hx : hf t = false := by simpa using hx
      rw [List.mem_range'_1] at hi
      have := hI.good t r hr i hi.1 (by rw [hend t r hr hx]; omega)
      rw [this] at hb
      cases hb
  have herr : (P.asyncRun tasks v n sched).errs =
      (R.filter fun r => (List.range' r.1 (r.2 - r.1)).any fun i => !P.smaller (P.cellZ (v.getD i []))).length := by
    rw [hI.errs]
    have gen : ∀ (L : List (Nat × Nat)) (f : Nat → Bool) (g : Nat × Nat → Bool),
        (∀ (t : Nat) (r : Nat × Nat), L[t]? = some r → (f t = true ↔ g r = true)) →
        (∑ t ∈ Finset.range L.length, if f t then 1 else 0) = (L.filter g).length := by
      intro L
      induction L with
      | nil => intro f g _; rfl
      | cons a L ih =>
        intro f g hfg
        rw [List.length_cons, Finset.sum_range_succ', ih (fun t => f (t + 1)) g (fun t r h => hfg (t + 1) r h)]
        have h0 := hfg 0 a rfl
        by_cases hg : g a = true
        · rw [List.filter_cons_of_pos hg, if_pos (h0.2 hg)]; rfl
        · rw [List.filter_cons_of_neg hg, if_neg (fun hx => hg (h0.1 hx))]; rfl
    exact gen R hf _ hiff
  have hcov : ∀ i < n, ∃ r ∈ R, r.1 ≤ i ∧ i < r.2 := by
    intro i hi
    have : i ∈ R.flatMap (fun r => List.range' r.1 (r.2 - r.1)) := hflat ▸ List.mem_range.2 hi
    obtain ⟨r, hr, hm⟩ := List.mem_flatMap.1 this
    rw [List.mem_range'_1] at hm
    exact ⟨r, hr, hm.1, by omega⟩
  refine ⟨hI.len.trans hv, ?_, herr, ?_⟩
  · rw [herr, List.length_eq_zero_iff, List.filter_eq_nil_iff]
    constructor
    · intro hall i hi
      obtain ⟨r, hr, h1, h2⟩ := hcov i hi
      by_contra hx
      apply hall r hr
      rw [List.any_eq_true]
      exact ⟨i, List.mem_range'_1.2 ⟨h1, by omega⟩, by simpa using hx⟩
    · intro hall r hr hx
      rw [List.any_eq_true] at hx
      obtain ⟨i, hi, hb⟩ := hx
      rw [List.mem_range'_1] at hi
      have := (executeRanges_le ht r hr).2
      rw [hall i (by omega)] at hb
      cases hb
  · intro r hr i h1 h2
    obtain ⟨t, ht1, ht2⟩ := List.getElem_of_mem hr
    have hrt : R[t]? = some r := List.getElem?_eq_some_iff.2 ⟨ht1, ht2⟩
    by_cases hip : i < p t
    · rw [if_pos, hI.conv t r hrt i h1 hip]
      rw [List.all_eq_true]
      intro j hj
      rw [List.mem_range'_1] at hj
      exact hI.good t r hrt j hj.1 (by omega)
    · have hx : hf t = true := by
        by_contra hx
        have hx : hf t = false := by simpa using hx
        rw [hend t r hrt hx] at hip
        exact hip h2
      obtain ⟨_, h4, h5⟩ := hI.halt t r hrt hx
      rw [if_neg, hI.raw t r hrt i (by omega) h2]
      rw [List.all_eq_true]
      intro hall
      have := hall (p t) (List.mem_range'_1.2 ⟨(hI.lo t r hrt).1, by omega⟩)
      rw [h5] at this
      cases this

end FieldPkg

end Ringo
