import Verif.Props.Complete

/-!
# C49: the commitment parameters fit the proof
-/

namespace Ringo

open Finset Polynomial

set_option linter.unusedSectionVars false

section
variable {p : Nat} [Fact p.Prime] {E : Env (ZMod p)} {cp : Compilation (ZMod p)}

theorem sliceTo_len {α : Type} {l r : List α} {a b : Nat} (h : sliceTo l a b = .ok r) :
    b ≤ a ∧ r.length = a - b := by
  unfold sliceTo at h
  split at h
  · cases h
  · split at h
    · cases h
    · cases h
      exact ⟨by omega, by rw [List.length_take]; omega⟩

theorem mapM_ok_length {α β : Type} (f : α → Go β) (l : List α) :
    ∀ {r : List β}, l.mapM f = .ok r → r.length = l.length := by
  induction l with
  | nil => intro r h; cases h; rfl
  | cons a l ih =>
    intro r h
    rw [List.mapM_cons] at h
    obtain ⟨b, -, h⟩ := bind_ok_inv h
    obtain ⟨bs, h2, h⟩ := bind_ok_inv h
    cases h
    simp [ih h2]

theorem splitRem_len {rank jrank : Nat} {rem : Poly (ZMod p)} {r : List (ZMod p) × List (ZMod p)}
    (h : splitRem rank jrank rem = .ok r) :
    rank - 1 ≤ jrank ∧ r.1.length = rank - 1 ∧ r.2.length = jrank := by
  unfold splitRem at h
  obtain ⟨lo, h1, h⟩ := bind_ok_inv h
  split at h
  · cases h
  · cases h
    have := mapM_ok_length _ _ h1
    simp only [List.length_range] at this
    refine ⟨by omega, this, ?_⟩
    rw [List.length_append, List.length_replicate, this]; omega

theorem arithCheckP_len {b : ZMod p} {pwNTT : List (Poly (ZMod p))}
    {wNTT : List (Option (Poly (ZMod p)))} {quo : List (ZMod p)}
    (h : arithCheckP cp b pwNTT wNTT = .ok quo) :
    cp.ctx.rank ≤ cp.ctx.arithCheckMaxRank ∧ quo.length = cp.ctx.arithCheckMaxRank - cp.ctx.rank := by
  unfold arithCheckP at h
  obtain ⟨_, -, h⟩ := bind_ok_inv h
  obtain ⟨_, -, h⟩ := bind_ok_inv h
  obtain ⟨_, -, h⟩ := bind_ok_inv h
  exact sliceTo_len h

theorem linCheckP_len {proj : List (List Bool)} {jrank : Nat} {b c : ZMod p} {m : Poly (ZMod p)}
    {wNTT : List (Option (Poly (ZMod p)))} {r : List (ZMod p) × List (ZMod p) × List (ZMod p)}
    (h : linCheckP cp E.users proj jrank b c m wNTT = .ok r) :
    r.1.length = cp.ctx.rank ∧ r.2.1.length = cp.ctx.rank - 1 ∧ r.2.2.length = jrank := by
  unfold linCheckP at h
  iterate 8 obtain ⟨_, -, h⟩ := bind_ok_inv h
  obtain ⟨_, h1, h⟩ := bind_ok_inv h
  obtain ⟨_, h2, h⟩ := bind_ok_inv h
  cases h
  exact ⟨(sliceTo_len h2).2, (splitRem_len h1).2⟩

theorem sumCheckP_len {jrank : Nat} {b : ZMod p} {m : Poly (ZMod p)} {pwNTT : List (Poly (ZMod p))}
    {wNTT : List (Option (Poly (ZMod p)))} {r : List (ZMod p) × List (ZMod p) × List (ZMod p)}
    (h : sumCheckP cp jrank b m pwNTT wNTT = .ok r) :
    cp.ctx.rank ≤ cp.ctx.sumCheckMaxRank ∧ r.1.length = cp.ctx.sumCheckMaxRank - cp.ctx.rank ∧
      r.2.1.length = cp.ctx.rank - 1 ∧ r.2.2.length = jrank := by
  unfold sumCheckP at h
  iterate 5 obtain ⟨_, -, h⟩ := bind_ok_inv h
  obtain ⟨_, h1, h⟩ := bind_ok_inv h
  obtain ⟨_, h2, h⟩ := bind_ok_inv h
  cases h
  exact ⟨(sliceTo_len h2).1, (sliceTo_len h2).2, (splitRem_len h1).2⟩

/-- What `commitRank` covers. -/
theorem commitRank_covers {N : Nat} {ctx : Context (ZMod p)} (hi : CtxInv2 N ctx) :
    (0 < ctx.wCnt → N + 1 ≤ ctx.commitRank) ∧ ctx.arithCheckMaxRank - N ≤ ctx.commitRank ∧
      (ctx.lin ≠ [] → 2 * N ≤ ctx.commitRank) ∧ ctx.sumCheckMaxRank ≤ ctx.commitRank := by
  have h := le_refl ctx.commitRank
  conv at h => lhs; unfold Context.commitRank
  simp only at h
  obtain ⟨h1, hs⟩ := foldl_max_bound _ _ _ _ h
  rw [hi.rank] at h1 hs
  have hlin : ctx.lin ≠ [] → 2 * N ≤ ctx.commitRank := by
    intro hl
    rw [if_pos (length_pos_ne.2 hl)] at h1
    exact le_trans (le_max_right _ _) h1
  have h2 : ctx.arith.foldl (fun rank c => max rank (c.maxRank N - N))
      (if ctx.wCnt > 0 then N + 1 else 0) ≤ ctx.commitRank := by
    split at h1
    · exact le_trans (le_max_left _ _) h1
    · exact h1
  obtain ⟨h3, ha⟩ := foldl_max_bound _ _ _ _ h2
  refine ⟨fun hw => by rw [if_pos hw] at h3; exact h3, ?_, hlin, ?_⟩
  · have := hi.arithUp (ctx.commitRank + N) (fun c hc => by have := ha c hc; omega)
      (fun hl => by have := hlin hl; omega)
    omega
  · exact hi.sumUp _ (fun c hc => by have := hs c hc; omega)

/-- **C49, partial.**  For every circuit and every successful run of the prover - for an honest or a
dishonest assignment, any randomness, any commitment scheme of at least the requested rank - the
proof holds exactly `batch` commitments, one to each of `batch` polynomials, and none of these is
longer than the rank of the scheme.  If moreover each kind of check present has a constraint with a
secret witness (`hA`, `hS`), none of them is empty.

Missing: that proving never panics in the commitment scheme, which fails without `hA`
(`C49_refuted`); with it, and for satisfying assignments, it is part of `C48_partial`, which allows
`Commit` to panic outside the lengths given here. -/
theorem C49_partial {N ty pw0 w0 : Nat} {ops : List (CtxOp (ZMod p))}
    (hc : compile N ty pw0 w0 ops = .ok cp) (hN : 2 ≤ N) (hrank : cp.ctx.commitRank ≤ E.pcs.rank)
    (t : Tape (ZMod p) E.pcs.Rnd) (ord : Orders) (c : Circ (ZMod p)) (pf : BProof (ZMod p) E.pcs)
    (h : prove E cp t ord c = .ok (some pf)) :
    pf.witness.length = cp.ctx.batch ∧
    ∃ polys : List (List (ZMod p)), polys.length = cp.ctx.batch ∧
      (∀ i < cp.ctx.batch, ∃ poly com op, polys[i]? = some poly ∧ pf.witness[i]? = some com ∧
        E.pcs.commit poly (t.com i) = .ok (com, op)) ∧
      (∀ poly ∈ polys, poly.length ≤ E.pcs.rank) ∧
      ((cp.ctx.arith ≠ [] → N < cp.ctx.arithCheckMaxRank) →
        (cp.ctx.sums ≠ [] → N < cp.ctx.sumCheckMaxRank) → ∀ poly ∈ polys, 1 ≤ poly.length) := by
  unfold prove at h
  obtain ⟨r, hr, h⟩ := bind_ok_inv h
  cases r with
  | none => cases h
  | some r =>
  obtain ⟨pf', vals⟩ := r
  cases h
  obtain ⟨-, pw, sw, pwNTT, sw2, wNTT, lm, sm, all, -, -, R⟩ := proveT_run hc hr
  have hi : CtxInv2 N cp.ctx := CtxInv2.define ops (CtxInv2.new _ _ _ _) (compile_inv hc).1
  obtain ⟨b1, b2, b3, b4⟩ := commitRank_covers hi
  have hrk := hi.rank
  have hbatch := batch_eq cp.ctx
  have main : ∀ i < cp.ctx.batch, ∃ e, all[i]? = some e ∧ e.1.length ≤ E.pcs.rank ∧
      ((cp.ctx.arith ≠ [] → N < cp.ctx.arithCheckMaxRank) →
        (cp.ctx.sums ≠ [] → N < cp.ctx.sumCheckMaxRank) → 1 ≤ e.1.length) := by
    intro i hib
    rw [hbatch] at hib
    unfold nextOf at hib
    by_cases h1 : i < cp.ctx.wCnt
    · obtain ⟨w, ecd, q, poly, e, -, -, h4, h5⟩ := R.wit i h1
      have hl := (sliceTo_len h4).2
      rw [hrk] at hl
      exact ⟨_, h5, by have := b1 (by omega); simp only; omega, fun _ _ => by simp only; omega⟩
    by_cases h2 : cp.ctx.lin.length > 0 ∧ i = cp.ctx.wCnt
    · obtain ⟨m, poly, e, -, -, h4, h5⟩ := R.linMask h2.1
      have hl := (sliceTo_len h4).2
      rw [hrk] at hl
      rw [h2.2]
      exact ⟨_, h5, by have := b3 (length_pos_ne.1 h2.1); simp only; omega,
        fun _ _ => by simp only; omega⟩
    by_cases h3 : cp.ctx.sums.length > 0 ∧
        i = cp.ctx.wCnt + (if cp.ctx.lin.length > 0 then 1 else 0)
    · obtain ⟨m, poly, e, -, -, h4, h5⟩ := R.sumMask h3.1
      have hl := (sliceTo_len h4).2
      rw [h3.2]
      exact ⟨_, h5, by simp only; omega, fun _ hS => by
        have := hS (length_pos_ne.1 h3.1); simp only; omega⟩
    by_cases h4 : cp.ctx.arith.length > 0 ∧ i = nextOf cp.ctx
    · obtain ⟨quo, e, q1, q2⟩ := R.arith h4.1
      obtain ⟨q3, q4⟩ := arithCheckP_len q1
      rw [hrk] at q3 q4
      rw [h4.2]
      exact ⟨_, q2, by simp only; omega, fun hA _ => by
        have := hA (length_pos_ne.1 h4.1); simp only; omega⟩
    by_cases h5 : cp.ctx.lin.length > 0 ∧
      nextOf cp.ctx + (if cp.ctx.arith.length > 0 then 1 else 0) ≤ i ∧
      i < nextOf cp.ctx + (if cp.ctx.arith.length > 0 then 1 else 0) + 3
    · obtain ⟨m, -, -, m1, -⟩ := R.linMask h5.1
      obtain ⟨r, e0, e1, e2, r1, r2, r3, r4⟩ := R.lin m m1
      obtain ⟨l1, l2, l3⟩ := linCheckP_len r1
      rw [hrk] at l1 l2
      have := b3 (length_pos_ne.1 h5.1)
      obtain h6 | h6 | h6 : i = nextOf cp.ctx + (if cp.ctx.arith.length > 0 then 1 else 0) ∨
        i = nextOf cp.ctx + (if cp.ctx.arith.length > 0 then 1 else 0) + 1 ∨
        i = nextOf cp.ctx + (if cp.ctx.arith.length > 0 then 1 else 0) + 2 := by omega
      · rw [h6]; exact ⟨_, r2, by simp only; omega, fun _ _ => by simp only; omega⟩
      · rw [h6]; exact ⟨_, r3, by simp only; omega, fun _ _ => by simp only; omega⟩
      · rw [h6]; exact ⟨_, r4, by simp only; omega, fun _ _ => by simp only; omega⟩
    have h6 : cp.ctx.sums.length > 0 := by
      by_contra hn
      unfold nextOf at h4 h5
      split_ifs at hib h2 h3 h4 h5 <;> omega
    obtain ⟨m, -, -, m1, -⟩ := R.sumMask h6
    obtain ⟨r, e0, e1, e2, r1, r2, r3, r4⟩ := R.sum m m1
    obtain ⟨l0, l1, l2, l3⟩ := sumCheckP_len r1
    rw [hrk] at l0 l1 l2
    set base := nextOf cp.ctx + (if cp.ctx.arith.length > 0 then 1 else 0) +
      (if cp.ctx.lin.length > 0 then 3 else 0) with hbase
    obtain h7 | h7 | h7 : i = base ∨ i = base + 1 ∨ i = base + 2 := by
      unfold nextOf at h4 h5 hbase
      split_ifs at hib h2 h3 h4 h5 hbase <;> omega
    · rw [h7]; exact ⟨_, r2, by simp only; omega, fun _ hS => by
        have := hS (length_pos_ne.1 h6); simp only; omega⟩
    · rw [h7]; exact ⟨_, r3, by simp only; omega, fun _ _ => by simp only; omega⟩
    · rw [h7]; exact ⟨_, r4, by simp only; omega, fun _ _ => by simp only; omega⟩
  refine ⟨by rw [R.pfW, List.length_map, R.len], all.map (·.1), by rw [List.length_map, R.len], ?_, ?_, ?_⟩
  · intro i hib
    obtain ⟨e, h1, h2⟩ := R.made i hib
    exact ⟨e.1, e.2.1, e.2.2, by rw [List.getElem?_map, h1]; rfl,
      by rw [R.pfW, List.getElem?_map, h1]; rfl, h2⟩
  · intro poly hp
    obtain ⟨i, hil, rfl⟩ := List.getElem_of_mem hp
    rw [List.length_map, R.len] at hil
    obtain ⟨e, h1, h2, -⟩ := main i hil
    rw [List.getElem_map]
    rw [List.getElem?_eq_getElem (by rw [R.len]; exact hil)] at h1
    injection h1 with h1
    rw [h1]; exact h2
  · intro hA hS poly hp
    obtain ⟨i, hil, rfl⟩ := List.getElem_of_mem hp
    rw [List.length_map, R.len] at hil
    obtain ⟨e, h1, -, h2⟩ := main i hil
    rw [List.getElem_map]
    rw [List.getElem?_eq_getElem (by rw [R.len]; exact hil)] at h1
    injection h1 with h1
    rw [h1]; exact h2 hA hS

/-- **C49 fails, and with it C48.**  If a circuit has arithmetic constraints but none of them (nor a
linear constraint) needs more than `rank` coefficients - as with a constraint on public witnesses
only - then the prover commits to a polynomial with no coefficients.  With a commitment scheme that
cannot do this (Jindo's `Commit` panics, `C66_refuted`) it returns no proof, whatever the
assignment. -/
theorem C49_refuted {N ty pw0 w0 : Nat} {ops : List (CtxOp (ZMod p))}
    (hc : compile N ty pw0 w0 ops = .ok cp) (hA : cp.ctx.arith ≠ [])
    (hmax : cp.ctx.arithCheckMaxRank ≤ N) (hP : ∀ r x, E.pcs.commit [] r ≠ .ok x)
    (t : Tape (ZMod p) E.pcs.Rnd) (ord : Orders) (c : Circ (ZMod p)) (pf : BProof (ZMod p) E.pcs) :
    prove E cp t ord c ≠ .ok (some pf) := by
  intro h
  unfold prove at h
  obtain ⟨r, hr, h⟩ := bind_ok_inv h
  cases r with
  | none => cases h
  | some r =>
  obtain ⟨pf', vals⟩ := r
  cases h
  obtain ⟨-, pw, sw, pwNTT, sw2, wNTT, lm, sm, all, -, -, R⟩ := proveT_run hc hr
  have hi : CtxInv2 N cp.ctx := CtxInv2.define ops (CtxInv2.new _ _ _ _) (compile_inv hc).1
  obtain ⟨quo, e, q1, q2⟩ := R.arith (length_pos_ne.2 hA)
  obtain ⟨q3, q4⟩ := arithCheckP_len q1
  rw [hi.rank] at q3 q4
  have hq : quo = [] := List.length_eq_zero_iff.1 (by omega)
  subst hq
  have hil := (List.getElem?_eq_some_iff.1 q2).1
  obtain ⟨e', h1, h2⟩ := R.made _ (by rw [← R.len]; exact hil)
  rw [q2] at h1
  cases h1
  exact hP _ _ h2

end

end Ringo
