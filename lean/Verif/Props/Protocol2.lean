import Verif.Props.Complete2
import Verif.Proof.Verify

/-!
# C47 and C50, and examples for C46, C48 and C49
-/

namespace Ringo

open Finset Polynomial

set_option linter.unusedSectionVars false

section
variable {p : Nat} [Fact p.Prime]

/-- The trivial commitment scheme: the commitment is the polynomial.  `Commit` panics unless there
are between one and `rank` coefficients. -/
abbrev plainPCS (p rank : Nat) : PCS (ZMod p) where
  Com := List (ZMod p)
  Open := Unit
  Pf := Unit
  Rnd := Unit
  rank := rank
  commit v _ := if 1 ≤ v.length ∧ v.length ≤ rank then .ok (v, ()) else goPanic
  evaluate x vs _ _ _ := .ok (vs.map (fun v => evalAt v.length v x), ())
  verify x cs es _ := .ok (decide (es = cs.map (fun v => evalAt v.length v x)))
  ser v := v.flatMap (fun a => [UInt8.ofNat (a.val / 256), UInt8.ofNat a.val])

theorem plainPCS_correct (rank n : Nat) : (plainPCS p rank).Correct n where
  commit := by
    intro v r h1 h2
    exact ⟨(v, ()), if_pos ⟨h1, h2⟩⟩
  eval := by
    intro x batch rnd r hl hc
    have hcom : batch.map (fun e => evalAt e.1.length e.1 x) =
        (batch.map (fun e => (e.2.1 : List (ZMod p)))).map (fun v => evalAt v.length v x) := by
      rw [List.map_map]
      apply List.map_congr_left
      intro e he
      obtain ⟨i, hi, rfl⟩ := List.getElem_of_mem he
      have h := hc i _ (List.getElem?_eq_getElem hi)
      have h2 : (batch[i].2.1 : List (ZMod p)) = batch[i].1 := by
        change (if 1 ≤ batch[i].1.length ∧ batch[i].1.length ≤ rank then
          (Except.ok (batch[i].1, ()) : Go (List (ZMod p) × Unit)) else goPanic) = _ at h
        split at h
        · injection h with h; exact congrArg Prod.fst h.symm
        · cases h
      exact congrArg (fun v : List (ZMod p) => evalAt v.length v x) h2.symm
    refine ⟨(), ?_, ?_⟩
    · exact congrArg (fun l => (Except.ok (l, ()) : Go (List (ZMod p) × Unit)))
        (List.map_map (f := fun e : List (ZMod p) × List (ZMod p) × Unit => e.1))
    · exact congrArg (Except.ok : Bool → Go Bool) (decide_eq_true hcom)

/-! ## C47 -/

variable {E : Env (ZMod p)} {cp : Compilation (ZMod p)} {K Ke : Nat} {g ge : ZMod p}

theorem checksV_congr (pf : BProof (ZMod p) E.pcs) (e1 e2 : List (Poly (ZMod p))) (ch : Challenges)
    (lm sm : Option (ZMod p)) (next : Nat)
    (h : e1.mapM (fun e => e.evaluate (E.setBytes ch.x)) = e2.mapM (fun e => e.evaluate (E.setBytes ch.x))) :
    checksV E cp pf e1 ch lm sm next = checksV E cp pf e2 ch lm sm next := by
  unfold checksV; rw [h]

/-- For every vector and every point there is another vector whose encoding has the same value
there. -/
theorem encode_collision (h : GoodCp K Ke g ge cp) (u : List (ZMod p)) (hu : u.length = 2 ^ K)
    (r : ZMod p) : ∃ u' e e', u'.length = 2 ^ K ∧ u' ≠ u ∧ cp.ecd.encode u = .ok ⟨e, false⟩ ∧
      cp.ecd.encode u' = .ok ⟨e', false⟩ ∧ evalAt e'.length e' r = evalAt e.length e r := by
  obtain ⟨e, e1, -, e3, e4⟩ := h.encode u hu
  set u' : List (ZMod p) := (List.range (2 ^ K)).map (fun j => u.getD j 0 + (g ^ rev K j - r)) with hu'
  have hget : ∀ j < 2 ^ K, u'.getD j 0 = u.getD j 0 + (g ^ rev K j - r) := by
    intro j hj
    rw [hu', List.getD_eq_getElem?_getD, List.getElem?_map, List.getElem?_range hj]; rfl
  obtain ⟨e', f1, -, f3, f4⟩ := h.encode u' (by simp [hu'])
  have h8 : 8 ≤ 2 ^ K := by
    calc 8 = 2 ^ 3 := rfl
      _ ≤ 2 ^ K := Nat.pow_le_pow_right (by norm_num) h.hK
  have hpoly : listPoly e' = listPoly e + (X - C r) := by
    have hd : (X ^ 2 ^ K - 1 : (ZMod p)[X]) ∣ listPoly e' - (listPoly e + (X - C r)) := by
      rw [h.pts.dvd_iff]
      intro i hi
      simp only [eval_sub, eval_add, eval_X, eval_C]
      rw [f4 i hi, e4 i hi, hget i hi]; ring
    have hz := eq_zero_of_dvd_of_natDegree_lt hd ?_
    · rwa [sub_eq_zero] at hz
    · have h1 : (X ^ 2 ^ K - 1 : (ZMod p)[X]).natDegree = 2 ^ K :=
        natDegree_eq_of_degree_eq_some (X_pow_sub_one_degree _ (Nat.two_pow_pos K))
      rw [h1]
      refine lt_of_le_of_lt (natDegree_sub_le _ _) (max_lt (by omega) ?_)
      refine lt_of_le_of_lt (natDegree_add_le _ _) (max_lt (by omega) ?_)
      rw [natDegree_X_sub_C]; omega
  refine ⟨u', e, e', by simp [hu'], ?_, e1, f1, ?_⟩
  · intro heq
    have h0 := hget 0 (by omega)
    have h1 := hget 1 (by omega)
    rw [heq] at h0 h1
    have g0 : g ^ rev K 0 = r := by
      have : (0 : ZMod p) = g ^ rev K 0 - r := by
        have := h0; rw [left_eq_add] at this; exact this.symm
      exact (sub_eq_zero.1 this.symm)
    have g1 : g ^ rev K 1 = r := by
      have : (0 : ZMod p) = g ^ rev K 1 - r := by
        have := h1; rw [left_eq_add] at this; exact this.symm
      exact (sub_eq_zero.1 this.symm)
    have := h.pts.inj (show 0 ∈ (range (2 ^ K) : Set ℕ) by simp) (show 1 ∈ (range (2 ^ K) : Set ℕ) by
      rw [Finset.mem_coe, Finset.mem_range]; omega) (by rw [g0, g1])
    omega
  · rw [← listPoly_eval, ← listPoly_eval, hpoly]; simp

/-- The circuit `&struct{ U PublicWitness; X Witness }`. -/
def circ47 (u x : List (ZMod p)) : Val (ZMod p) := .ptr (.fields [.pub true true u, .wit true true x])

/-- `U + X - X = 0`. -/
def ops47 : List (CtxOp (ZMod p)) := [.arith [⟨1, some 0, []⟩, ⟨1, none, [0]⟩, ⟨-1, none, [0]⟩]]

/-- **C47 fails.**  The verifier's challenges are a function of the proof alone (`challengesV` is not
given the public witnesses).  Therefore every accepted proof is accepted for other public witnesses:
whatever the hash function and the commitment scheme, a proof accepted for the public vector `u` is
also accepted for some `u' ≠ u`. -/
theorem C47_refuted (hK : 3 ≤ K) (hc : compile (2 ^ K) 0 1 1 (ops47 : List (CtxOp (ZMod p))) = .ok cp)
    (u x : List (ZMod p)) (hu : u.length = 2 ^ K) (pf : BProof (ZMod p) E.pcs)
    (h : verify E cp [] ⟨0, circ47 u x⟩ pf = .ok true) :
    ∃ u', u'.length = 2 ^ K ∧ u' ≠ u ∧ ∀ x', verify E cp [] ⟨0, circ47 u' x'⟩ pf = .ok true := by
  have hdef := (compile_inv hc).1
  have hctx : cp.ctx = (newContext (ZMod p) (2 ^ K) 0 1 1).addArith
      [⟨1, some 0, []⟩, ⟨1, none, [0]⟩, ⟨-1, none, [0]⟩] := by
    injection hdef with h1; exact h1.symm
  have hlt : 2 ^ K < max cp.ctx.arithCheckMaxRank cp.ctx.sumCheckMaxRank := by
    rw [hctx]
    have : 8 ≤ 2 ^ K := by
      calc 8 = 2 ^ 3 := rfl
        _ ≤ 2 ^ K := Nat.pow_le_pow_right (by norm_num) hK
    simp only [Context.addArith, newContext, Constraint.maxRank, Term.deg, List.foldl,
      Option.isSome_some, Option.isSome_none, List.length_nil, List.length_cons]
    split_ifs <;> simp <;> omega
  obtain ⟨Ke, g, ge, hg⟩ := compile_good hK hc hlt
  have hcol : ∀ (u x : List (ZMod p)), u.length = 2 ^ K →
      assignV cp [] (circ47 u x) = .ok (some [u]) := by
    intro u x hu
    unfold assignV
    rw [hg.rank, show cp.ctx.pwCnt = 1 by rw [hctx]; rfl]
    simp [vrfCollect, circ47, vrfWalk, vrfWalks, setIdx, hu]
  have hty : cp.ctx.circType = 0 := by rw [hctx]; rfl
  unfold verify at h
  rw [if_neg (by simp [hty])] at h
  simp only at h
  rw [hcol u x hu, go_bind_ok] at h
  simp only at h
  obtain ⟨pe, hpe, h⟩ := bind_ok_inv h
  obtain ⟨r, hr, h⟩ := bind_ok_inv h
  cases r with
  | none => cases h
  | some r =>
  obtain ⟨ch, lm, sm, next⟩ := r
  simp only at h
  obtain ⟨b, hb, h⟩ := bind_ok_inv h
  cases b with
  | false => cases h
  | true =>
  simp only [Bool.not_true, Bool.false_eq_true, if_false] at h
  obtain ⟨u', e, e', h1, h2, h3, h4, h5⟩ := encode_collision hg u hu (E.setBytes ch.x)
  refine ⟨u', h1, h2, fun x' => ?_⟩
  have hpe' : pe = [⟨e, false⟩] := by
    rw [List.mapM_cons, h3, go_bind_ok, List.mapM_nil] at hpe
    injection hpe with hpe; exact hpe.symm
  subst hpe'
  unfold verify
  rw [if_neg (by simp [hty])]
  simp only
  rw [hcol u' x' h1, go_bind_ok]
  simp only
  rw [List.mapM_cons, h4, go_bind_ok, List.mapM_nil]
  simp only [go_pure, go_bind_ok, hr, hb, Bool.not_true, Bool.false_eq_true, if_false]
  rw [← h]
  apply checksV_congr
  have := evaluate_map [e'] (E.setBytes ch.x)
  have h6 := evaluate_map [e] (E.setBytes ch.x)
  simp only [List.map_cons, List.map_nil] at this h6
  rw [this, h6, h5]


/-! ## C48, C47 and C46 together: examples -/

theorem circ47_leaf {u x : List (ZMod p)} {path : List Nat} {s i : Bool} {w : List (ZMod p)}
    (h : (circ47 u x).get? path = some (.pub s i w) ∨ (circ47 u x).get? path = some (.wit s i w)) :
    s = true ∧ i = true ∧ (w = u ∨ w = x) := by
  unfold circ47 at h
  rcases path with _ | ⟨_ | j, _ | ⟨_ | _ | k, _ | _⟩⟩ <;>
    simp [get?_nil, get?_ptr, get?_ptr_succ, get?_cons_zero, get?_cons_succ, get?_fields_nil,
      get?_pub, get?_wit] at h <;> tauto

theorem circ47_assigned (hp : 5 < p) {u x : List (ZMod p)} {pw sw : List (List (ZMod p))}
    (h : AssignedTo (circ47 [] []) (circ47 u x) pw sw) : pw[0]? = some u ∧ sw[0]? = some x := by
  obtain ⟨d1, d2⟩ := C25_decode p 0 (by decide) (by
    have : (0 : UInt64).toNat = 0 := rfl
    omega)
  constructor
  · obtain ⟨s', i', hd, id, a1, a2, a3⟩ := h.2 [0, 0] true true u (by
      simp [circ47, get?_ptr, get?_cons_zero, get?_nil])
    have : hd = idToPublicWitness p 0 := by
      simp [circ47, firstWalk, firstWalks, get?_ptr, get?_cons_zero, get?_nil] at a1
      exact a1.2.2.symm
    rw [this, d2] at a2
    cases a2
    exact a3
  · obtain ⟨s', i', hd, id, a1, a2, a3⟩ := h.1 [0, 1] true true x (by
      simp [circ47, get?_ptr, get?_cons_zero, get?_cons_succ, get?_nil])
    have : hd = idToWitness p 0 := by
      simp [circ47, firstWalk, firstWalks, get?_ptr, get?_cons_zero, get?_cons_succ, get?_nil] at a1
      exact a1.2.2.symm
    rw [this, d1] at a2
    cases a2
    exact a3

/-- **C47, consequence.**  With any correct commitment scheme and any hash function, the honest prover
run on the circuit `U + X - X = 0` with `U = 0` produces a proof that the verifier also accepts for
some nonzero public vector `U`, for which the circuit has no satisfying assignment. -/
theorem C47_false_statement (hp2 : p % 2 = 1) (hp : 5 < p) (hK : 3 ≤ K)
    (hc : compile (2 ^ K) 0 1 1 (ops47 : List (CtxOp (ZMod p))) = .ok cp)
    (hP : E.pcs.Correct cp.ctx.batch) (hrank : cp.ctx.commitRank ≤ E.pcs.rank)
    (x : List (ZMod p)) (hx : x.length = 2 ^ K) (t : Tape (ZMod p) E.pcs.Rnd) :
    ∃ pf u', prove E cp t ⟨[], [], [], []⟩ ⟨0, circ47 (List.replicate (2 ^ K) 0) x⟩ = .ok (some pf) ∧
      verify E cp [] ⟨0, circ47 (List.replicate (2 ^ K) 0) x⟩ pf = .ok true ∧
      u'.length = 2 ^ K ∧ (∀ x', ¬ ∀ op ∈ (ops47 : List (CtxOp (ZMod p))),
        op.HonestFor (2 ^ K) E.users [u'] [x']) ∧
      ∀ x', verify E cp [] ⟨0, circ47 u' x'⟩ pf = .ok true := by
  have hdef := (compile_inv hc).1
  have hctx : cp.ctx = (newContext (ZMod p) (2 ^ K) 0 1 1).addArith
      [⟨1, some 0, []⟩, ⟨1, none, [0]⟩, ⟨-1, none, [0]⟩] := by
    injection hdef with h1; exact h1.symm
  have h8 : 8 ≤ 2 ^ K := by
    calc 8 = 2 ^ 3 := rfl
      _ ≤ 2 ^ K := Nat.pow_le_pow_right (by norm_num) hK
  have hA : 2 ^ K < cp.ctx.arithCheckMaxRank := by
    rw [hctx]
    simp only [Context.addArith, newContext, Constraint.maxRank, Term.deg, List.foldl,
      Option.isSome_some, Option.isSome_none, List.length_nil, List.length_cons]
    split_ifs <;> simp <;> omega
  have hrow : ∀ (u x : List (ZMod p)) (pw sw : List (List (ZMod p))), pw[0]? = some u → sw[0]? = some x →
      ∀ i, Constraint.onRow (F := ZMod p) [⟨1, some 0, []⟩, ⟨1, none, [0]⟩, ⟨-1, none, [0]⟩] pw sw i =
        u.getD i 0 := by
    intro u x pw sw h1 h2 i
    simp [Constraint.onRow, Constraint.value, Term.value, rowOf, List.getD_eq_getElem?_getD, h1, h2]
  obtain ⟨pf, h1, h2⟩ := C48_partial (E := E) (cp := cp) hp2 hK (ops47 : List (CtxOp (ZMod p)))
    (circ47 [] []) (circ47 (List.replicate (2 ^ K) 0) x) (circ47 (List.replicate (2 ^ K) 0) x)
    (fun path s i w h => (circ47_leaf h).1) (.ptr (.cons .pub (.cons .wit .nil)))
    (fun path s i w h => by
      obtain ⟨-, h2, rfl | rfl⟩ := circ47_leaf h
      · exact ⟨h2, by simp⟩
      · exact ⟨h2, hx⟩)
    (.ptr (.cons .pub (.cons .wit .nil))) hc
    (by rw [hctx]; simp [Context.addArith, newContext])
    (by rw [hctx]; simp only [Context.addArith, newContext]; omega)
    (by
      intro op hop
      simp only [ops47, List.mem_singleton] at hop
      subst hop
      intro t ht
      simp only [List.mem_cons, List.not_mem_nil, or_false] at ht
      rcases ht with rfl | rfl | rfl <;> simp [circ47, firstWalk, firstWalks])
    List.nodup_nil (Nat.zero_le 1) List.nodup_nil
    (lt_max_of_lt_left hA) (fun _ => hA)
    (fun h => absurd (by rw [hctx]; rfl) h) (by simp [ops47]) hP hrank ⟨[], [], [], []⟩
    (by rw [hctx]; exact ⟨.refl _, .refl _, .refl _, .refl _⟩) [] (by rw [hctx]; exact .refl _)
    (by
      intro pw sw hA op hop
      simp only [ops47, List.mem_singleton] at hop
      subst hop
      intro i hi
      obtain ⟨a1, a2⟩ := circ47_assigned hp hA
      rw [hrow _ _ _ _ a1 a2, List.getD_eq_getElem?_getD, List.getElem?_replicate]
      split <;> rfl) t
  obtain ⟨u', e1, e2, e3⟩ := C47_refuted hK hc _ x (by simp) pf h2
  refine ⟨pf, u', h1, h2, e1, ?_, e3⟩
  intro x' hall
  apply e2
  apply List.ext_getElem (by simp [e1])
  intro i hi _
  have h0 := hall (.arith [⟨1, some 0, []⟩, ⟨1, none, [0]⟩, ⟨-1, none, [0]⟩])
    (by simp only [ops47, List.mem_singleton])
  have := h0 i (by omega)
  rw [hrow u' x' [u'] [x'] rfl rfl] at this
  rw [List.getElem_replicate, ← this, getD_eq hi]

/-- The hypotheses of `C47_refuted` and `C47_false_statement` are met with `p = 97`, rank 8 and the
trivial commitment scheme, for any hash function. -/
example (hash : Bytes → Bytes) (xof : Bytes → Nat → UInt8) (marshal : ZMod 97 → Bytes)
    (setBytes : Bytes → ZMod 97) (users : Nat → LinearChecker (ZMod 97)) :
    ∃ cp, compile (p := 97) (2 ^ 3) 0 1 1 ops47 = .ok cp ∧
      (plainPCS 97 32).Correct cp.ctx.batch ∧ cp.ctx.commitRank ≤ (plainPCS 97 32).rank ∧
      ∃ (pf : BProof (ZMod 97) (plainPCS 97 32)), verify ⟨plainPCS 97 32, hash, xof, marshal, setBytes, users⟩ cp []
          ⟨0, circ47 (List.replicate 8 0) (List.replicate 8 5)⟩ pf = .ok true := by
  obtain ⟨cp, h1, h2⟩ := compile_total (p := 97) (N := 2 ^ 3) (ty := 0) (pw0 := 1) (w0 := 1)
    (ops := ops47) (K := 3) (Ke := 4) rfl (by norm_num) (by norm_num) rfl (by decide) (by norm_num) (by norm_num)
  have hr : cp.ctx.commitRank ≤ (plainPCS 97 32).rank := by rw [h2]; decide +kernel
  refine ⟨cp, h1, plainPCS_correct _ _, hr, ?_⟩
  obtain ⟨pf, u', -, h3, -⟩ := C47_false_statement
    (E := ⟨plainPCS 97 32, hash, xof, marshal, setBytes, users⟩) (by norm_num) (by norm_num)
    (by norm_num) h1 (plainPCS_correct _ _) hr (List.replicate 8 5) (by simp)
    ⟨fun _ => 1, fun _ => 0, fun _ => 0, fun _ => (), ()⟩
  exact ⟨pf, h3⟩

/-! ## C48 -/

/-- The circuit `&struct{ U PublicWitness; X, Y Witness }`. -/
def circ48 (u x y : List (ZMod p)) : Val (ZMod p) :=
  .ptr (.fields [.pub true true u, .wit true true x, .wit true true y])

/-- `X * Y = U`, the entries of `X` are at most 5, and they sum to zero. -/
def ops48 : List (CtxOp (ZMod p)) :=
  [.arith [⟨1, none, [0, 1]⟩, ⟨-1, some 0, []⟩], .inf 0 5, .sum [⟨1, none, [0]⟩] 0]

theorem circ48_leaf {u x y : List (ZMod p)} {path : List Nat} {s i : Bool} {w : List (ZMod p)}
    (h : (circ48 u x y).get? path = some (.pub s i w) ∨ (circ48 u x y).get? path = some (.wit s i w)) :
    s = true ∧ i = true ∧ (w = u ∨ w = x ∨ w = y) := by
  unfold circ48 at h
  rcases path with _ | ⟨_ | j, _ | ⟨_ | _ | _ | k, _ | _⟩⟩ <;>
    simp [get?_nil, get?_ptr, get?_ptr_succ, get?_cons_zero, get?_cons_succ, get?_fields_nil,
      get?_pub, get?_wit] at h <;> tauto

theorem circ48_assigned (hp : 7 < p) {u x y : List (ZMod p)} {pw sw : List (List (ZMod p))}
    (h : AssignedTo (circ48 [] [] []) (circ48 u x y) pw sw) :
    pw[0]? = some u ∧ sw[0]? = some x ∧ sw[1]? = some y := by
  obtain ⟨d1, d2⟩ := C25_decode p 0 (by decide) (by
    have : (0 : UInt64).toNat = 0 := rfl
    omega)
  have d3 := (C25_decode p 1 (by decide) (by
    have : (1 : UInt64).toNat = 1 := rfl
    omega)).1
  refine ⟨?_, ?_, ?_⟩
  · obtain ⟨s', i', hd, id, a1, a2, a3⟩ := h.2 [0, 0] true true u (by
      simp [circ48, get?_ptr, get?_cons_zero, get?_nil])
    have : hd = idToPublicWitness p 0 := by
      simp [circ48, firstWalk, firstWalks, get?_ptr, get?_cons_zero, get?_nil] at a1
      exact a1.2.2.symm
    rw [this, d2] at a2
    cases a2
    exact a3
  · obtain ⟨s', i', hd, id, a1, a2, a3⟩ := h.1 [0, 1] true true x (by
      simp [circ48, get?_ptr, get?_cons_zero, get?_cons_succ, get?_nil])
    have : hd = idToWitness p 0 := by
      simp [circ48, firstWalk, firstWalks, get?_ptr, get?_cons_zero, get?_cons_succ, get?_nil] at a1
      exact a1.2.2.symm
    rw [this, d1] at a2
    cases a2
    exact a3
  · obtain ⟨s', i', hd, id, a1, a2, a3⟩ := h.1 [0, 2] true true y (by
      simp [circ48, get?_ptr, get?_cons_zero, get?_cons_succ, get?_nil])
    have : hd = idToWitness p 1 := by
      simp [circ48, firstWalk, firstWalks, get?_ptr, get?_cons_zero, get?_cons_succ, get?_nil] at a1
      exact a1.2.2.symm
    rw [this, d3] at a2
    cases a2
    exact a3

theorem compile48 : ∃ cp, compile (p := 193) 8 0 1 2 ops48 = .ok cp ∧ cp.ctx.pwCnt = 1 ∧
    cp.ctx.wCnt = 5 ∧ cp.ctx.infDcmp = [⟨0, 5, [2, 3, 4]⟩] ∧ cp.ctx.twoDcmp = [] ∧
    cp.ctx.projWit = [] ∧ cp.ctx.projInf = [] ∧ cp.ctx.arithCheckMaxRank = 25 ∧ cp.ctx.sumCheckMaxRank = 9 ∧
    cp.ctx.commitRank = 18 ∧ cp.ctx.wSecond = [] ∧ cp.ctx.lin = [] ∧ cp.ctx.rank = 8 ∧
    cp.ctx.batch = 10 ∧ (cp.ctx.arith ++ cp.ctx.sums).all (fun c => decide (c.checkDeg 8 18 ≤ 58)) = true := by
  have h5 : decomposeBase (5 : Int).toNat = .ok [3, 1, 1] := base5
  have hdef : ∃ ctx, (newContext (ZMod 193) 8 0 1 2).define ops48 = .ok ctx ∧ ctx.embRank = 32 ∧
      ctx.pwCnt = 1 ∧
    ctx.wCnt = 5 ∧ ctx.infDcmp = [⟨0, 5, [2, 3, 4]⟩] ∧ ctx.twoDcmp = [] ∧
    ctx.projWit = [] ∧ ctx.projInf = [] ∧ ctx.arithCheckMaxRank = 25 ∧ ctx.sumCheckMaxRank = 9 ∧
    ctx.commitRank = 18 ∧ ctx.wSecond = [] ∧ ctx.lin = [] ∧ ctx.rank = 8 ∧
    ctx.batch = 10 ∧ (ctx.arith ++ ctx.sums).all (fun c => decide (c.checkDeg 8 18 ≤ 58)) = true := by
    refine ⟨_, by
      unfold Context.define ops48
      rw [List.foldlM_cons]
      simp only [Context.apply]
      rw [go_pure, go_bind_ok, List.foldlM_cons]
      simp only [Context.apply]
      unfold Context.addInf; rw [if_neg (by norm_num), if_neg (by norm_num),
        if_neg (by norm_num), h5]; rfl, rfl, rfl, rfl, rfl, rfl, rfl, rfl, rfl, rfl, rfl, rfl, rfl, rfl, rfl, rfl⟩
  obtain ⟨ctx, a1, a2, a3⟩ := hdef
  obtain ⟨cp, h1, h2⟩ := compile_total (p := 193) (N := 8) (ty := 0) (pw0 := 1) (w0 := 2)
    (K := 3) (Ke := 5) rfl (by norm_num) (by norm_num) a1 a2 (by norm_num) (by norm_num)
  exact ⟨cp, h1, by rw [h2]; exact a3⟩

/-- `C48_partial` applies: for every hash function and tape, and every `y`, the prover and verifier of
`X * Y = U`, `|X| ≤ 5`, `Σ X = 0` (`p = 193`, rank 8, any correct commitment scheme of rank at least 18) run on
`X = (2, -2, 5, -5, …)`. -/
theorem case48 (pcs : PCS (ZMod 193)) (hcor : pcs.Correct 10) (hrank : 18 ≤ pcs.rank)
    (hash : Bytes → Bytes) (xof : Bytes → Nat → UInt8) (marshal : ZMod 193 → Bytes)
    (setBytes : Bytes → ZMod 193) (users : Nat → LinearChecker (ZMod 193))
    (t : Tape (ZMod 193) pcs.Rnd) (y : List (ZMod 193)) (hy : y.length = 8) :
    ∃ cp, compile (p := 193) 8 0 1 2 ops48 = .ok cp ∧ ∃ pf,
      prove ⟨pcs, hash, xof, marshal, setBytes, users⟩ cp t
        ⟨cp.ctx.infDcmp, cp.ctx.twoDcmp, cp.ctx.projWit, cp.ctx.projInf⟩
        ⟨0, circ48 (List.zipWith (· * ·) [2, -2, 5, -5, 1, -1, 0, 0] y) [2, -2, 5, -5, 1, -1, 0, 0] y⟩ =
          .ok (some pf) ∧
      verify ⟨pcs, hash, xof, marshal, setBytes, users⟩ cp [] ⟨0, circ48
        (List.zipWith (· * ·) [2, -2, 5, -5, 1, -1, 0, 0] y) (List.replicate 8 0) (List.replicate 8 0)⟩ pf =
          .ok true := by
  obtain ⟨cp, h1, h2, h3, h4, h5, h6, h7, h8, h9, h10, -, -, -, h14, -⟩ := compile48
  refine ⟨cp, h1, ?_⟩
  refine C48_partial (E := ⟨pcs, hash, xof, marshal, setBytes, users⟩) (cp := cp)
    (K := 3) (ty := 0) (by norm_num) (by norm_num) ops48 (circ48 [] [] [])
    (circ48 (List.zipWith (· * ·) [2, -2, 5, -5, 1, -1, 0, 0] y) [2, -2, 5, -5, 1, -1, 0, 0] y)
    (circ48 (List.zipWith (· * ·) [2, -2, 5, -5, 1, -1, 0, 0] y) (List.replicate 8 0) (List.replicate 8 0))
    (fun path s i w h => (circ48_leaf h).1) (.ptr (.cons .pub (.cons .wit (.cons .wit .nil))))
    (fun path s i w h => by
      obtain ⟨-, h2, rfl | rfl | rfl⟩ := circ48_leaf h
      · exact ⟨h2, by simp [hy]⟩
      · exact ⟨h2, rfl⟩
      · exact ⟨h2, hy⟩)
    (.ptr (.cons .pub (.cons .wit (.cons .wit .nil)))) h1
    (by rw [h2, h3]; norm_num) (by rw [h2, h3]; norm_num) ?_ (by decide) (Nat.zero_le 1) List.nodup_nil
    (by rw [h8]; simp) (fun _ => by rw [h8]; norm_num)
    (fun _ => by rw [h9]; norm_num) (by simp [ops48]) (by rw [h14]; exact hcor) (by rw [h10]; exact hrank)
    _ ⟨.refl _, .refl _, .refl _, .refl _⟩ [] (by rw [h5]) ?_ t
  · intro op hop
    simp only [ops48, List.mem_cons, List.not_mem_nil, or_false] at hop
    rcases hop with rfl | rfl | rfl
    · intro t ht
      simp only [List.mem_cons, List.not_mem_nil, or_false] at ht
      rcases ht with rfl | rfl <;> simp [circ48, firstWalk, firstWalks]
    · show 0 < 2; norm_num
    · intro t ht
      simp only [List.mem_cons, List.not_mem_nil, or_false] at ht
      rcases ht with rfl; simp [circ48, firstWalk, firstWalks]
  · intro pw sw hA op hop
    obtain ⟨a1, a2, a3⟩ := circ48_assigned (by norm_num) hA
    have row0 : ∀ i, rowOf sw i 0 = ([2, -2, 5, -5, 1, -1, 0, 0] : List (ZMod 193)).getD i 0 := by
      intro i; simp [rowOf, List.getD_eq_getElem?_getD, a2]
    simp only [ops48, List.mem_cons, List.not_mem_nil, or_false] at hop
    rcases hop with rfl | rfl | rfl
    · intro i hi
      simp only [Constraint.onRow, Constraint.value, Term.value, rowOf, List.getD_eq_getElem?_getD, a1, a2, a3,
        List.map_cons, List.map_nil, List.prod_cons, List.prod_nil, List.sum_cons, List.sum_nil, Option.getD_some,
        List.getElem?_zipWith]
      have : y[i]? = some y[i] := List.getElem?_eq_getElem (by omega)
      rw [this]
      have : ∃ z, ([2, -2, 5, -5, 1, -1, 0, 0] : List (ZMod 193))[i]? = some z :=
        ⟨_, List.getElem?_eq_getElem hi⟩
      obtain ⟨z, hz⟩ := this
      rw [hz]; simp
    · refine ⟨by norm_num, ?_⟩
      intro i hi
      rw [row0]
      constructor
      · revert i hi
        decide +kernel
      · rintro ⟨k, hk, h⟩
        obtain ⟨m, rfl⟩ : ∃ m, k = m + 1 := ⟨k - 1, by omega⟩
        rw [pow_succ] at h
        have : (5 : Int).toNat = 5 := rfl
        omega
    · refine ⟨rfl, ?_⟩
      have : ∀ i, Constraint.onRow (F := ZMod 193) [⟨1, none, [0]⟩] pw sw i =
          ([2, -2, 5, -5, 1, -1, 0, 0] : List (ZMod 193)).getD i 0 := by
        intro i; rw [← row0]; simp [Constraint.onRow, Constraint.value, Term.value]
      simp only [this]
      decide +kernel



example (hash : Bytes → Bytes) (xof : Bytes → Nat → UInt8) (marshal : ZMod 193 → Bytes)
    (setBytes : Bytes → ZMod 193) (users : Nat → LinearChecker (ZMod 193)) (t : Tape (ZMod 193) Unit)
    (y : List (ZMod 193)) (hy : y.length = 8) :=
  case48 (plainPCS 193 32) (plainPCS_correct _ _) (by norm_num) hash xof marshal setBytes users t y hy

/-- `U = 0`, and the entries of `X` sum to zero. -/
def ops48' : List (CtxOp (ZMod p)) := [.arith [⟨1, some 0, []⟩], .sum [⟨1, none, [0]⟩] 0]

/-- **C48 fails** for circuits all of whose arithmetic constraints mention public witnesses only.
The circuit `U = 0, Σ X = 0` compiles, `U = X = 0` satisfies it, the commitment scheme is correct, and
yet `Prove` never returns a proof: the quotient polynomial has no coefficients, and `Commit` panics on
the empty polynomial (`C66`). -/
theorem C48_refuted : ∃ cp, compile (p := 97) 8 0 1 1 ops48' = .ok cp ∧
    Settable (circ47 (p := 97) [] []) ∧
    SameShape (circ47 (p := 97) [] []) (circ47 (p := 97) (List.replicate 8 0) (List.replicate 8 0)) ∧
    FullRank 8 (circ47 (p := 97) (List.replicate 8 0) (List.replicate 8 0)) ∧
    (∀ pw sw users, AssignedTo (circ47 (p := 97) [] []) (circ47 (p := 97) (List.replicate 8 0) (List.replicate 8 0)) pw sw →
      ∀ op ∈ ops48', op.HonestFor 8 users pw sw) ∧
    (plainPCS 97 32).Correct cp.ctx.batch ∧ cp.ctx.commitRank ≤ (plainPCS 97 32).rank ∧
    ∀ hash xof marshal setBytes users (t : Tape (ZMod 97) Unit) ord pf,
      prove ⟨plainPCS 97 32, hash, xof, marshal, setBytes, users⟩ cp t ord
        ⟨0, circ47 (p := 97) (List.replicate 8 0) (List.replicate 8 0)⟩ ≠ .ok (some pf) := by
  obtain ⟨cp, h1, h2⟩ := compile_total (p := 97) (N := 8) (ty := 0) (pw0 := 1) (w0 := 1)
    (ops := ops48') (K := 3) (Ke := 4) rfl (by norm_num) (by norm_num) rfl (by decide) (by norm_num) (by norm_num)
  refine ⟨cp, h1, fun path s i w h => (circ47_leaf h).1, .ptr (.cons .pub (.cons .wit .nil)),
    fun path s i w h => by
      obtain ⟨-, h2, rfl | rfl⟩ := circ47_leaf h <;> exact ⟨h2, by simp⟩, ?_, plainPCS_correct _ _,
    by rw [h2]; decide +kernel, ?_⟩
  · intro pw sw users hA op hop
    obtain ⟨a1, a2⟩ := circ47_assigned (by norm_num) hA
    simp only [ops48', List.mem_cons, List.not_mem_nil, or_false] at hop
    have hz : ∀ i, (List.replicate 8 (0 : ZMod 97)).getD i 0 = 0 := by
      intro i
      rw [List.getD_eq_getElem?_getD, List.getElem?_replicate]
      split <;> rfl
    have r1 : ∀ i, rowOf pw i 0 = 0 := by
      intro i; unfold rowOf; rw [List.getD_eq_getElem?_getD (l := pw), a1]; exact hz i
    have r2 : ∀ i, rowOf sw i 0 = 0 := by
      intro i; unfold rowOf; rw [List.getD_eq_getElem?_getD (l := sw), a2]; exact hz i
    rcases hop with rfl | rfl
    · intro i hi
      simp [Constraint.onRow, Constraint.value, Term.value, r1]
    · refine ⟨rfl, ?_⟩
      simp [Constraint.onRow, Constraint.value, Term.value, r2]
  · intro hash xof marshal setBytes users t ord pf
    refine C49_refuted (E := ⟨plainPCS 97 32, hash, xof, marshal, setBytes, users⟩) h1 ?_ ?_ ?_ t ord _ pf
    · rw [h2]; simp [newContext, Context.addArith, Context.addSum]
    · rw [h2]; decide +kernel
    · intro r x h
      simp [plainPCS, goPanic] at h

/-! ## C50 -/

/-- **C50 fails.**  `Verify` panics (index out of range) on every proof without commitments, for every
compiled circuit whose first secret witness belongs to the first round (any circuit with a secret
witness of its own) and every well-formed public input. -/
theorem C50_refuted (h : GoodCp K Ke g ge cp) (hw : 0 < cp.ctx.wCnt) (h0 : 0 ∉ cp.ctx.wSecond)
    {two : List TwoEntry} {c' : Circ (ZMod p)} (hty : c'.ty = cp.ctx.circType)
    {pw : List (List (ZMod p))} (ha' : assignV cp two c'.val = .ok (some pw))
    (pf : BProof (ZMod p) E.pcs) (hpf : pf.witness = []) : verify E cp two c' pf = goPanic := by
  have hpw := assignV_shape ha'
  rw [h.rank] at hpw
  obtain ⟨pps, pwNTT, p1, -⟩ := encodePub_spec h pw hpw.2
  unfold verify
  rw [if_neg (by simp [hty]), ha', go_bind_ok]
  simp only
  rw [p1, go_bind_ok]
  have : challengesV E cp pf = goPanic := by
    unfold challengesV
    obtain ⟨n, hn⟩ : ∃ n, cp.ctx.wCnt = n + 1 := ⟨cp.ctx.wCnt - 1, by omega⟩
    have e1 : forRange 0 cp.ctx.wCnt 1 Transcript.new (fun tr i =>
      if i ∈ cp.ctx.wSecond then pure tr else bindCom E pf .projConst tr i) = goPanic := by
      rw [forRange_zero, hn, List.range_succ_eq_map, List.foldlM_cons, if_neg h0]
      unfold bindCom
      rw [hpf]; rfl
    simp only [e1]; rfl
  rw [this]; rfl

/-- **C50, partial.**  A proof with the right number of commitments and evaluations, and with mask sums
where the circuit needs them, never makes `Verify` panic - provided that the verifier of the
commitment scheme does not panic and the caller's linear maps meet their contract. -/
theorem C50_partial {ty pw0 w0 : Nat} {ops : List (CtxOp (ZMod p))} (hK : 3 ≤ K)
    (hc : compile (2 ^ K) ty pw0 w0 ops = .ok cp) (hv : ∀ op ∈ ops, op.Valid pw0 w0)
    (hlt : 2 ^ K < max cp.ctx.arithCheckMaxRank cp.ctx.sumCheckMaxRank) (hj : 2 ^ K ≤ E.pcs.rank + 1)
    (hlin : ∀ seed, LinOK (2 ^ K) E.users (projMatrix E.xof seed (2 ^ K)) cp.ctx.lin)
    (hP : ∀ x cs es pr, ∃ b, E.pcs.verify x cs es pr = .ok b)
    {two : List TwoEntry} {c' : Circ (ZMod p)} {r : Option (List (List (ZMod p)))}
    (ha' : assignV cp two c'.val = .ok r) (pf : BProof (ZMod p) E.pcs)
    (hwl : pf.witness.length = cp.ctx.batch) (hel : pf.evals.length = cp.ctx.batch)
    (hl : cp.ctx.lin ≠ [] → pf.linMaskSum ≠ none) (hs : cp.ctx.sums ≠ [] → pf.sumMaskSum ≠ none) :
    ∃ b, verify E cp two c' pf = .ok b := by
  by_cases hty : c'.ty = cp.ctx.circType
  · cases r with
    | none =>
      refine ⟨false, ?_⟩
      unfold verify
      rw [if_neg (by simp [hty]), ha']; rfl
    | some pw =>
      have hdef := (compile_inv hc).1
      obtain ⟨Ke, g, ge, hgood⟩ := compile_good hK hc hlt
      have hr := CtxRefs.define ops hv (ctx := newContext (ZMod p) (2 ^ K) ty _ _)
        ⟨le_rfl, le_rfl, by simp [newContext], by simp [newContext], by simp [newContext]⟩ hdef
      obtain ⟨b, hb⟩ := hP (E.setBytes (chalsOf E cp.ctx pf).x) pf.witness pf.evals pf.evalProof
      obtain ⟨pps, -, -, h⟩ := verify_spec hgood (by omega) (CtxInv2.define ops (CtxInv2.new _ _ _ _) hdef)
        hr hty ha' pf (hlin _) hwl hel hl hs hb
      exact ⟨_, h⟩
  · refine ⟨false, ?_⟩
    unfold verify
    rw [if_pos (Ne.symm hty)]; rfl

/-- The hypotheses of `C50_refuted` and `C50_partial` are met by the circuit of the example above: a
proof without commitments, and one with the right number of (arbitrary) commitments and evaluations. -/
example (E : Env (ZMod 193)) (hE : E.pcs = plainPCS 193 32) (u x y : List (ZMod 193)) (hu : u.length = 8) :
    ∃ cp, compile (p := 193) (2 ^ 3) 0 1 2 ops48 = .ok cp ∧ 0 < cp.ctx.wCnt ∧ 0 ∉ cp.ctx.wSecond ∧
      2 ^ 3 < max cp.ctx.arithCheckMaxRank cp.ctx.sumCheckMaxRank ∧
      (∃ pw, assignV cp [] (circ48 u x y) = .ok (some pw)) ∧ 2 ^ 3 ≤ E.pcs.rank + 1 ∧
      (∀ seed, LinOK (2 ^ 3) E.users (projMatrix E.xof seed (2 ^ 3)) cp.ctx.lin) ∧
      (∀ x cs es pr, ∃ b, E.pcs.verify x cs es pr = .ok b) := by
  obtain ⟨cp, h1, h2, h3, h4, h5, h6, h7, h8, h9, h10, h11, h12, h13, -⟩ := compile48
  refine ⟨cp, h1, by omega, by simp [h11], by rw [h8]; simp, ⟨[u], ?_⟩, by rw [hE]; simp,
    fun seed => by rw [h12]; simp [LinOK], ?_⟩
  · unfold assignV
    rw [h2, h13]
    simp [vrfCollect, circ48, vrfWalk, vrfWalks, setIdx, hu]
  · rw [hE]; intro x cs es pr; exact ⟨_, rfl⟩


/-! ## C76 -/

/-- **C76.**  On a proof of the right shape `Verify` returns true exactly if the circuit has the compiled
type, the commitment scheme accepts the claimed evaluations at the last challenge `x`, and the
equations `Accepts` of the three checks hold between the claimed evaluations and the evaluations at
`x` of the encodings of the public vectors. -/
theorem C76_accept {ty pw0 w0 : Nat} {ops : List (CtxOp (ZMod p))} (hK : 3 ≤ K)
    (hc : compile (2 ^ K) ty pw0 w0 ops = .ok cp) (hv : ∀ op ∈ ops, op.Valid pw0 w0)
    (hlt : 2 ^ K < max cp.ctx.arithCheckMaxRank cp.ctx.sumCheckMaxRank) (hj : 2 ^ K ≤ E.pcs.rank + 1)
    (hlin : ∀ seed, LinOK (2 ^ K) E.users (projMatrix E.xof seed (2 ^ K)) cp.ctx.lin)
    {two : List TwoEntry} {c' : Circ (ZMod p)} {pw : List (List (ZMod p))}
    (ha' : assignV cp two c'.val = .ok (some pw)) (pf : BProof (ZMod p) E.pcs)
    (hwl : pf.witness.length = cp.ctx.batch) (hel : pf.evals.length = cp.ctx.batch)
    (hl : cp.ctx.lin ≠ [] → pf.linMaskSum ≠ none) (hs : cp.ctx.sums ≠ [] → pf.sumMaskSum ≠ none) :
    ∃ x : ZMod p, ∃ ch : Challenges, x = E.setBytes ch.x ∧
      (∃ lm sm next, challengesV E cp pf = .ok (some (ch, lm, sm, next))) ∧
      ∃ pps : List (List (ZMod p)), pps.length = cp.ctx.pwCnt ∧
      pw.mapM (fun v => cp.ecd.encode v) = .ok (pps.map (fun e => ⟨e, false⟩)) ∧
      (verify E cp two c' pf = .ok true ↔ c'.ty = cp.ctx.circType ∧
        E.pcs.verify x pf.witness pf.evals pf.evalProof = .ok true ∧
        Accepts E cp pf (fun i => (listPoly (pps.getD i [])).eval x) ch
          (pf.evals.getD cp.ctx.wCnt 0)
          (pf.evals.getD (cp.ctx.wCnt + (if cp.ctx.lin.length > 0 then 1 else 0)) 0)
          (pf.linMaskSum.getD 0) (pf.sumMaskSum.getD 0) (nextOf cp.ctx)
          (nextOf cp.ctx + (if cp.ctx.arith.length > 0 then 1 else 0))
          (nextOf cp.ctx + (if cp.ctx.arith.length > 0 then 1 else 0) +
            (if cp.ctx.lin.length > 0 then 3 else 0))) := by
  have hdef := (compile_inv hc).1
  obtain ⟨Ke, g, ge, hgood⟩ := compile_good hK hc hlt
  have hr := CtxRefs.define ops hv (ctx := newContext (ZMod p) (2 ^ K) ty _ _)
    ⟨le_rfl, le_rfl, by simp [newContext], by simp [newContext], by simp [newContext]⟩ hdef
  have hi2 : CtxInv2 (2 ^ K) cp.ctx := CtxInv2.define ops (CtxInv2.new _ _ _ _) hdef
  have hpw := assignV_shape ha'
  rw [hgood.rank] at hpw
  have hbe := batch_eq cp.ctx
  have hch := challengesV_eq pf hi2.lt (E := E) (cp := cp) ⟨by omega, by omega,
    fun h => Option.ne_none_iff_exists'.1 (hl (length_pos_ne.1 h)),
    fun h => Option.ne_none_iff_exists'.1 (hs (length_pos_ne.1 h))⟩
  obtain ⟨pps, pwNTT, p1, -, p3, -, -⟩ := encodePub_spec hgood pw hpw.2
  refine ⟨_, chalsOf E cp.ctx pf, rfl, ⟨_, _, _, hch⟩, pps, by rw [p3, hpw.1], p1, ?_⟩
  by_cases hty : c'.ty = cp.ctx.circType
  · cases hb : E.pcs.verify (E.setBytes (chalsOf E cp.ctx pf).x) pf.witness pf.evals pf.evalProof with
    | error e =>
      constructor
      · intro h
        unfold verify at h
        rw [if_neg (by simp [hty]), ha', go_bind_ok] at h
        simp only at h
        rw [p1, go_bind_ok, hch, go_bind_ok] at h
        simp only at h
        rw [hb] at h
        cases h
      · rintro ⟨-, h, -⟩; cases h
    | ok b =>
      obtain ⟨pps', -, q1, q2⟩ := verify_spec hgood (by omega) hi2 hr hty ha' pf (hlin _) hwl hel hl hs hb
      have hpp : pps' = pps := by
        rw [p1] at q1
        injection q1 with q1
        have := congrArg (List.map Poly.coeffs) q1
        simpa [List.map_map, Function.comp_def] using this.symm
      subst hpp
      rw [q2]
      simp only [Except.ok.injEq, decide_eq_true_eq]
      exact ⟨fun h => ⟨hty, h⟩, fun h => h.2⟩
  · constructor
    · intro h
      unfold verify at h
      rw [if_pos (Ne.symm hty)] at h
      cases h
    · rintro ⟨h, -⟩; exact absurd h hty

end

end Ringo
