import Verif.Proof.Run

/-!
# The prover's and the verifier's transcripts

Both are described by one formula (`chals`) in the bytes bound for the three challenges to which
anything is bound.
-/

namespace Ringo

set_option linter.unusedSectionVars false

section
variable {p : Nat} [Fact p.Prime] {E : Env (ZMod p)} {cp : Compilation (ZMod p)}

/-- The challenges, as a function of the bytes bound to `projConst`, `arithBatchConst` and
`evalPoint`. -/
def chals (hash : Bytes → Bytes) (S1 S2 Sx : List Bytes) : Challenges :=
  let v0 := hash (Chal.projConst.name ++ [] ++ S1.flatten)
  let v1 := hash (Chal.arithBatchConst.name ++ v0 ++ S2.flatten)
  let v2 := hash (Chal.linCheckBatchConst.name ++ v1 ++ [])
  let v3 := hash (Chal.linCheckConst.name ++ v2 ++ [])
  let v4 := hash (Chal.sumCheckBatchConst.name ++ v3 ++ [])
  let v5 := hash (Chal.evalPoint.name ++ v4 ++ Sx.flatten)
  ⟨v0, v1, v2, v3, v4, v5⟩

/-- The bytes of commitment `i` of a proof. -/
def serW (pf : BProof (ZMod p) E.pcs) (i : Nat) : Bytes :=
  match pf.witness[i]? with
  | some c => E.pcs.ser c
  | none => []

theorem bindCom_ok (pf : BProof (ZMod p) E.pcs) (c : Chal) (tr : Transcript) (i : Nat)
    (hi : i < pf.witness.length) : bindCom E pf c tr i = .ok (tr.bind c (serW pf i)) := by
  unfold bindCom serW
  rw [idx_ok hi, List.getElem?_eq_getElem hi]; rfl

theorem bindComs_ok (pf : BProof (ZMod p) E.pcs) (c : Chal) (is : List Nat) (tr : Transcript)
    (hi : ∀ i ∈ is, i < pf.witness.length) :
    is.foldlM (fun tr i => bindCom E pf c tr i) tr = .ok (tr.bindAll c (is.map (serW pf))) := by
  induction is generalizing tr with
  | nil => rfl
  | cons i is ih =>
    rw [List.foldlM_cons, bindCom_ok pf c tr i (hi i (by simp)), go_bind_ok,
      ih _ (fun j hj => hi j (by simp [hj]))]
    rfl

/-- The bytes bound for a mask. -/
def maskMsg (E : Env (ZMod p)) (pf : BProof (ZMod p) E.pcs) (n : Nat) (s : Option (ZMod p))
    (next : Nat) : List Bytes :=
  if n > 0 then [serW pf next, E.marshal (s.getD 0)] else []

theorem maskBind_ok (pf : BProof (ZMod p) E.pcs) (n : Nat) (s : Option (ZMod p)) (tr : Transcript)
    (next : Nat) (h : n > 0 → next < pf.witness.length ∧ next < pf.evals.length ∧ ∃ x, s = some x) :
    maskBind E pf n s tr next = .ok (tr.bindAll .arithBatchConst (maskMsg E pf n s next),
      next + (if n > 0 then 1 else 0), if n > 0 then some (pf.evals.getD next 0) else none) := by
  unfold maskBind maskMsg
  by_cases hn : n > 0
  · obtain ⟨h1, h2, x, rfl⟩ := h hn
    simp only [if_pos hn]
    rw [idx_ok h2, go_bind_ok, bindCom_ok pf _ _ _ h1, go_bind_ok, List.getD_eq_getElem _ _ h2]
    rfl
  · simp only [if_neg hn]; rfl

/-- The number of the first commitment after the masks. -/
def nextOf (ctx : Context (ZMod p)) : Nat :=
  ctx.wCnt + (if ctx.lin.length > 0 then 1 else 0) + (if ctx.sums.length > 0 then 1 else 0)

/-- The bytes bound to `arithBatchConst`. -/
def msgs2 (E : Env (ZMod p)) (ctx : Context (ZMod p)) (pf : BProof (ZMod p) E.pcs) : List Bytes :=
  ctx.wSecond.map (serW pf) ++ maskMsg E pf ctx.lin.length pf.linMaskSum ctx.wCnt ++
    maskMsg E pf ctx.sums.length pf.sumMaskSum
      (ctx.wCnt + (if ctx.lin.length > 0 then 1 else 0))

/-- The challenges belonging to a proof. -/
def chalsOf (E : Env (ZMod p)) (ctx : Context (ZMod p)) (pf : BProof (ZMod p) E.pcs) : Challenges :=
  chals E.hash ((firstSlots ctx ctx.wCnt).map (serW pf)) (msgs2 E ctx pf)
    ((List.range' (nextOf ctx) (pf.witness.length - nextOf ctx)).map (serW pf))

theorem chals_steps (hash : Bytes → Bytes) (S1 S2 Sx : List Bytes) :
    ∃ v0 v1 v2 v3 v4 v5, chals hash S1 S2 Sx = ⟨v0, v1, v2, v3, v4, v5⟩ ∧
      (∀ tr : Transcript, tr = .new → (tr.bindAll .projConst S1).compute hash .projConst =
        some (v0, ⟨S1.map (fun b => (Chal.projConst, b)), [v0]⟩)) ∧
      (⟨S1.map (fun b => (Chal.projConst, b)) ++ S2.map (fun b => (Chal.arithBatchConst, b)), [v0]⟩ :
          Transcript).compute hash .arithBatchConst =
        some (v1, ⟨S1.map (fun b => (Chal.projConst, b)) ++
          S2.map (fun b => (Chal.arithBatchConst, b)), [v0, v1]⟩) ∧
      (∀ Sy : List Bytes, (⟨S1.map (fun b => (Chal.projConst, b)) ++
          S2.map (fun b => (Chal.arithBatchConst, b)) ++ Sy.map (fun b => (Chal.evalPoint, b)),
            [v0, v1]⟩ : Transcript).compute hash .linCheckBatchConst =
        some (v2, ⟨S1.map (fun b => (Chal.projConst, b)) ++
          S2.map (fun b => (Chal.arithBatchConst, b)) ++ Sy.map (fun b => (Chal.evalPoint, b)),
            [v0, v1, v2]⟩)) ∧
      (∀ Sy : List Bytes, (⟨S1.map (fun b => (Chal.projConst, b)) ++
          S2.map (fun b => (Chal.arithBatchConst, b)) ++ Sy.map (fun b => (Chal.evalPoint, b)),
            [v0, v1, v2]⟩ : Transcript).compute hash .linCheckConst =
        some (v3, ⟨S1.map (fun b => (Chal.projConst, b)) ++
          S2.map (fun b => (Chal.arithBatchConst, b)) ++ Sy.map (fun b => (Chal.evalPoint, b)),
            [v0, v1, v2, v3]⟩)) ∧
      (∀ Sy : List Bytes, (⟨S1.map (fun b => (Chal.projConst, b)) ++
          S2.map (fun b => (Chal.arithBatchConst, b)) ++ Sy.map (fun b => (Chal.evalPoint, b)),
            [v0, v1, v2, v3]⟩ : Transcript).compute hash .sumCheckBatchConst =
        some (v4, ⟨S1.map (fun b => (Chal.projConst, b)) ++
          S2.map (fun b => (Chal.arithBatchConst, b)) ++ Sy.map (fun b => (Chal.evalPoint, b)),
            [v0, v1, v2, v3, v4]⟩)) ∧
      (⟨S1.map (fun b => (Chal.projConst, b)) ++
          S2.map (fun b => (Chal.arithBatchConst, b)) ++ Sx.map (fun b => (Chal.evalPoint, b)),
            [v0, v1, v2, v3, v4]⟩ : Transcript).compute hash .evalPoint =
        some (v5, ⟨S1.map (fun b => (Chal.projConst, b)) ++
          S2.map (fun b => (Chal.arithBatchConst, b)) ++ Sx.map (fun b => (Chal.evalPoint, b)),
            [v0, v1, v2, v3, v4, v5]⟩) := by
  have fl : ∀ (c : Chal) (S : List Bytes),
      (S.map (fun b => (c, b))).flatMap (fun b => b.2) = S.flatten := by
    intro c S; induction S with
    | nil => rfl
    | cons a S ih => simp [ih]
  refine ⟨_, _, _, _, _, _, rfl, ?_, ?_, ?_, ?_, ?_, ?_⟩
  · rintro tr rfl
    rw [Transcript.bindAll_eq _ _ _ (by simp [Transcript.new]), Transcript.compute_next _ _ _ _ rfl]
    simp only [Transcript.new, List.nil_append, filter_bound, fl]
    rfl
  · rw [Transcript.compute_next _ _ _ _ rfl]
    simp only [List.filter_append, filter_bound, filter_other _ _ (show Chal.projConst ≠ .arithBatchConst
      by decide), List.nil_append, fl]
    rfl
  · intro Sy
    rw [Transcript.compute_next _ _ _ _ rfl]
    simp only [List.filter_append, filter_other _ _ (show Chal.projConst ≠ .linCheckBatchConst
      by decide), filter_other _ _ (show Chal.arithBatchConst ≠ .linCheckBatchConst
      by decide), filter_other _ _ (show Chal.evalPoint ≠ .linCheckBatchConst
      by decide), List.nil_append, List.flatMap_nil]
    rfl
  · intro Sy
    rw [Transcript.compute_next _ _ _ _ rfl]
    simp only [List.filter_append, filter_other _ _ (show Chal.projConst ≠ .linCheckConst
      by decide), filter_other _ _ (show Chal.arithBatchConst ≠ .linCheckConst
      by decide), filter_other _ _ (show Chal.evalPoint ≠ .linCheckConst
      by decide), List.nil_append, List.flatMap_nil]
    rfl
  · intro Sy
    rw [Transcript.compute_next _ _ _ _ rfl]
    simp only [List.filter_append, filter_other _ _ (show Chal.projConst ≠ .sumCheckBatchConst
      by decide), filter_other _ _ (show Chal.arithBatchConst ≠ .sumCheckBatchConst
      by decide), filter_other _ _ (show Chal.evalPoint ≠ .sumCheckBatchConst
      by decide), List.nil_append, List.flatMap_nil]
    rfl
  · rw [Transcript.compute_next _ _ _ _ rfl]
    simp only [List.filter_append, filter_bound, filter_other _ _ (show Chal.projConst ≠ .evalPoint
      by decide), filter_other _ _ (show Chal.arithBatchConst ≠ .evalPoint
      by decide), List.nil_append, fl]
    rfl

theorem Transcript.bindAll_append (tr : Transcript) (c : Chal) (a b : List Bytes) :
    (tr.bindAll c a).bindAll c b = tr.bindAll c (a ++ b) := by
  simp [Transcript.bindAll]

/-- What a proof must contain for the verifier's transcript not to panic. -/
structure PfShape (ctx : Context (ZMod p)) (pf : BProof (ZMod p) E.pcs) : Prop where
  wit : nextOf ctx ≤ pf.witness.length
  evals : nextOf ctx ≤ pf.evals.length
  lin : ctx.lin.length > 0 → ∃ x, pf.linMaskSum = some x
  sum : ctx.sums.length > 0 → ∃ x, pf.sumMaskSum = some x

theorem challengesV_eq (pf : BProof (ZMod p) E.pcs) (hs : ∀ i ∈ cp.ctx.wSecond, i < cp.ctx.wCnt)
    (h : PfShape cp.ctx pf) :
    challengesV E cp pf = .ok (some (chalsOf E cp.ctx pf,
      if cp.ctx.lin.length > 0 then some (pf.evals.getD cp.ctx.wCnt 0) else none,
      if cp.ctx.sums.length > 0 then some (pf.evals.getD (cp.ctx.wCnt +
        (if cp.ctx.lin.length > 0 then 1 else 0)) 0) else none, nextOf cp.ctx)) := by
  have hw := h.wit
  have he := h.evals
  unfold nextOf at hw he
  obtain ⟨v0, v1, v2, v3, v4, v5, hch, c0, c1, c2, c3, c4, c5⟩ :=
    chals_steps E.hash ((firstSlots cp.ctx cp.ctx.wCnt).map (serW pf)) (msgs2 E cp.ctx pf)
    ((List.range' (nextOf cp.ctx) (pf.witness.length - nextOf cp.ctx)).map (serW pf))
  unfold challengesV
  have e1 : forRange 0 cp.ctx.wCnt 1 Transcript.new (fun tr i =>
      if i ∈ cp.ctx.wSecond then pure tr else bindCom E pf .projConst tr i) =
      .ok (Transcript.new.bindAll .projConst ((firstSlots cp.ctx cp.ctx.wCnt).map (serW pf))) := by
    rw [forRange_zero, foldlM_skip (fun tr i => bindCom E pf .projConst tr i)
      (fun i => i ∈ cp.ctx.wSecond)]
    apply bindComs_ok
    intro i hi
    have := List.mem_range.1 (List.mem_filter.1 hi).1
    omega
  simp only [e1, go_bind_ok, c0 _ rfl]
  rw [bindComs_ok pf _ _ _ (fun i hi => lt_of_lt_of_le (hs i hi) (by omega)), go_bind_ok,
    maskBind_ok pf _ _ _ _ (fun hn => ⟨by rw [if_pos hn] at hw; omega, by rw [if_pos hn] at he; omega,
      h.lin hn⟩), go_bind_ok,
    maskBind_ok pf _ _ _ _ (fun hn => ⟨by rw [if_pos hn] at hw; simp only; omega,
      by rw [if_pos hn] at he; simp only; omega, h.sum hn⟩), go_bind_ok]
  simp only [Transcript.bindAll_append]
  rw [show cp.ctx.wSecond.map (serW pf) ++ maskMsg E pf cp.ctx.lin.length pf.linMaskSum cp.ctx.wCnt ++
    maskMsg E pf cp.ctx.sums.length pf.sumMaskSum
      (cp.ctx.wCnt + (if cp.ctx.lin.length > 0 then 1 else 0)) = msgs2 E cp.ctx pf from rfl,
    Transcript.bindAll_eq _ _ _ (by simp [Chal.pos])]
  simp only [c1]
  have c2' := c2 []
  have c3' := c3 []
  have c4' := c4 []
  simp only [List.map_nil, List.append_nil] at c2' c3' c4'
  simp only [c2', c3', c4']
  rw [forRange_one, bindComs_ok pf _ _ _ (by
    intro i hi
    have := List.mem_range'_1.1 hi
    unfold nextOf at *; omega), go_bind_ok, Transcript.bindAll_eq _ _ _ (by simp [Chal.pos])]
  rw [show cp.ctx.wCnt + (if cp.ctx.lin.length > 0 then 1 else 0) +
    (if cp.ctx.sums.length > 0 then 1 else 0) = nextOf cp.ctx from rfl]
  simp only [c5, chalsOf, hch]
  rfl

/-- What the pieces of a run have in common. -/
structure Piece (t : Tape (ZMod p) E.pcs.Rnd) (st st' : PState E.pcs) (is : List Nat)
    (evs : List (Ev E.pcs)) : Prop where
  idx : evs.map (·.i) = is
  made : ∀ e ∈ evs, e.Made t
  lt : ∀ e ∈ evs, e.i < st.tbl.length
  tbl : st'.tbl = putAll st.tbl evs
  wNTT : st'.wNTT = st.wNTT

theorem MaskRun.piece {t : Tape (ZMod p) E.pcs.Rnd} {n maskRank : Nat} {r : Nat → ZMod p}
    {st st' : PState E.pcs} {next next' : Nat} {m : Option (Poly (ZMod p) × ZMod p)}
    {evs : List (Ev E.pcs)} (h : MaskRun E cp t n maskRank r st st' next next' m evs) :
    Piece t st st' (List.range' next (if n > 0 then 1 else 0)) evs ∧
    next' = next + (if n > 0 then 1 else 0) ∧ (m.isSome = decide (n > 0)) ∧
    ∀ pf : BProof (ZMod p) E.pcs, (∀ e ∈ evs, serW pf e.i = E.pcs.ser e.com) →
      st'.tr = st.tr.bindAll .arithBatchConst (maskMsg E pf n (m.map (·.2)) next) := by
  by_cases hn : n > 0
  · obtain ⟨e, x, rfl, rfl, h1, h2, h3, h4, h5, h6, rfl⟩ := h.some hn
    simp only [if_pos hn, maskMsg]
    refine ⟨⟨by simp [h2], by simpa using h3, by simpa [h2] using h4, rfl, rfl⟩, h1, by simp [hn], ?_⟩
    intro pf hpf
    have := hpf e (by simp)
    rw [h2] at this
    rw [this]; rfl
  · obtain ⟨rfl, rfl, rfl, rfl⟩ := h.none (by omega)
    simp only [if_neg hn, maskMsg]
    exact ⟨⟨rfl, by simp, by simp, rfl, rfl⟩, rfl, by simp [hn], fun _ _ => rfl⟩

/-- The complete outcome of a run. -/
structure FullRun (E : Env (ZMod p)) (cp : Compilation (ZMod p)) (t : Tape (ZMod p) E.pcs.Rnd)
    (ord : Orders) (pwNTT : List (Poly (ZMod p))) (sw : List (List (ZMod p)))
    (pf : BProof (ZMod p) E.pcs) (vals : List Bytes) (sw2 : List (List (ZMod p)))
    (wNTT : List (Option (Poly (ZMod p)))) (lm sm : Option (Poly (ZMod p) × ZMod p))
    (all : List (List (ZMod p) × E.pcs.Com × E.pcs.Open)) : Prop where
  /-- The prover's challenges are those belonging to the proof. -/
  hvals : vals = [(chalsOf E cp.ctx pf).proj, (chalsOf E cp.ctx pf).ab, (chalsOf E cp.ctx pf).lb,
    (chalsOf E cp.ctx pf).lc, (chalsOf E cp.ctx pf).sb, (chalsOf E cp.ctx pf).x]
  len : all.length = cp.ctx.batch
  pfW : pf.witness = all.map (·.2.1)
  pfL : pf.linMaskSum = lm.map (·.2)
  pfS : pf.sumMaskSum = sm.map (·.2)
  /-- Slot `i` holds a commitment with randomness `t.com i`. -/
  made : ∀ i < cp.ctx.batch, ∃ e, all[i]? = some e ∧ E.pcs.commit e.1 (t.com i) = .ok e.2
  ev : E.pcs.evaluate (E.setBytes (chalsOf E cp.ctx pf).x) (all.map (·.1)) (all.map (·.2.1))
    (all.map (·.2.2)) t.ev = .ok (pf.evals, pf.evalProof)
  fill : projStep cp ord (projMatrix E.xof (chalsOf E cp.ctx pf).proj cp.ctx.rank) sw = .ok sw2
  wlen : wNTT.length = cp.ctx.wCnt
  /-- Slot `i` of the witnesses, committed in the first or in the second round. -/
  wit : ∀ i < cp.ctx.wCnt, ∃ w ecd q poly e, WitOf cp t.enc (if i ∈ cp.ctx.wSecond then sw2 else sw) i
    w ecd q ∧ wNTT[i]? = some (some q) ∧ sliceTo ecd.coeffs (cp.ctx.rank + 1) 0 = .ok poly ∧
    all[i]? = some (poly, e)
  linMask : cp.ctx.lin.length > 0 → ∃ m poly e, lm = some m ∧
    sumCheckMask cp.ev cp.ctx.rank (2 * cp.ctx.rank) t.linMask = .ok m ∧
    sliceTo m.1.coeffs (2 * cp.ctx.rank) 0 = .ok poly ∧ all[cp.ctx.wCnt]? = some (poly, e)
  sumMask : cp.ctx.sums.length > 0 → ∃ m poly e, sm = some m ∧
    sumCheckMask cp.ev cp.ctx.rank cp.ctx.sumCheckMaxRank t.sumMask = .ok m ∧
    sliceTo m.1.coeffs cp.ctx.sumCheckMaxRank 0 = .ok poly ∧
    all[cp.ctx.wCnt + (if cp.ctx.lin.length > 0 then 1 else 0)]? = some (poly, e)
  arith : cp.ctx.arith.length > 0 → ∃ quo e,
    arithCheckP cp (E.setBytes (chalsOf E cp.ctx pf).ab) pwNTT wNTT = .ok quo ∧
    all[nextOf cp.ctx]? = some (quo, e)
  lin : ∀ m, lm = some m → ∃ r e0 e1 e2,
    linCheckP cp E.users (projMatrix E.xof (chalsOf E cp.ctx pf).proj cp.ctx.rank) E.pcs.rank
      (E.setBytes (chalsOf E cp.ctx pf).lb) (E.setBytes (chalsOf E cp.ctx pf).lc) m.1 wNTT = .ok r ∧
    all[nextOf cp.ctx + (if cp.ctx.arith.length > 0 then 1 else 0)]? = some (r.1, e0) ∧
    all[nextOf cp.ctx + (if cp.ctx.arith.length > 0 then 1 else 0) + 1]? = some (r.2.1, e1) ∧
    all[nextOf cp.ctx + (if cp.ctx.arith.length > 0 then 1 else 0) + 2]? = some (r.2.2, e2)
  sum : ∀ m, sm = some m → ∃ r e0 e1 e2,
    sumCheckP cp E.pcs.rank (E.setBytes (chalsOf E cp.ctx pf).sb) m.1 pwNTT wNTT = .ok r ∧
    all[nextOf cp.ctx + (if cp.ctx.arith.length > 0 then 1 else 0) +
      (if cp.ctx.lin.length > 0 then 3 else 0)]? = some (r.1, e0) ∧
    all[nextOf cp.ctx + (if cp.ctx.arith.length > 0 then 1 else 0) +
      (if cp.ctx.lin.length > 0 then 3 else 0) + 1]? = some (r.2.1, e1) ∧
    all[nextOf cp.ctx + (if cp.ctx.arith.length > 0 then 1 else 0) +
      (if cp.ctx.lin.length > 0 then 3 else 0) + 2]? = some (r.2.2, e2)
  lmSome : lm.isSome = decide (cp.ctx.lin.length > 0)
  smSome : sm.isSome = decide (cp.ctx.sums.length > 0)

theorem Msg3Run.piece {t : Tape (ZMod p) E.pcs.Rnd} {st st' : PState E.pcs} {next : Nat}
    {m : List (ZMod p) × List (ZMod p) × List (ZMod p)} {evs : List (Ev E.pcs)}
    (h : Msg3Run E t st st' next m evs) : Piece t st st' (List.range' next 3) evs :=
  ⟨h.idx, h.made, h.lt, by rw [h.out], by rw [h.out]⟩

theorem mapM_ok_inv {α β : Type} (f : α → Go β) (l : List α) (r : List β) (h : l.mapM f = .ok r) :
    r.length = l.length ∧ ∀ (i : Nat) (a : α), l[i]? = some a → ∃ y, f a = .ok y ∧ r[i]? = some y := by
  induction l generalizing r with
  | nil =>
    rw [List.mapM_nil] at h
    injection h with h
    subst h; simp
  | cons a l ih =>
    rw [List.mapM_cons] at h
    obtain ⟨y, hy, h⟩ := bind_ok_inv h
    obtain ⟨ys, hys, h⟩ := bind_ok_inv h
    injection h with h
    subst h
    obtain ⟨h1, h2⟩ := ih ys hys
    refine ⟨by simp [h1], fun i b hb => ?_⟩
    cases i with
    | zero =>
      rw [List.getElem?_cons_zero] at hb
      injection hb with hb
      exact ⟨y, hb ▸ hy, rfl⟩
    | succ i => exact h2 i b hb

/-- The contents of a table, once all slots are read. -/
theorem slots_inv {α : Type} (l : List (Option α)) (all : List α)
    (h : (List.range l.length).mapM (fun i => slot l i) = .ok all) :
    all.length = l.length ∧ ∀ (i : Nat) (x : α), l[i]? = some (some x) → all[i]? = some x := by
  obtain ⟨h1, h2⟩ := mapM_ok_inv _ _ _ h
  rw [List.length_range] at h1
  refine ⟨h1, fun i x hx => ?_⟩
  have hi : i < l.length := by
    by_contra hc
    rw [List.getElem?_eq_none (by omega)] at hx; cases hx
  have hi' : i < all.length := by omega
  have := h2 i i (by simp [hi])
  obtain ⟨y, hy1, hy2⟩ := this
  unfold slot at hy1
  rw [idx_ok_iff.2 hx] at hy1
  injection hy1 with hy1
  rw [hy2, hy1]

theorem batch_eq (ctx : Context (ZMod p)) : ctx.batch = nextOf ctx +
    (if ctx.arith.length > 0 then 1 else 0) + (if ctx.lin.length > 0 then 3 else 0) +
    (if ctx.sums.length > 0 then 3 else 0) := by
  unfold Context.batch nextOf
  simp only
  split_ifs <;> omega

theorem map_ser_idx {pf : BProof (ZMod p) E.pcs} (evs : List (Ev E.pcs)) (is : List Nat)
    (hi : evs.map (·.i) = is) (h : ∀ e ∈ evs, serW pf e.i = E.pcs.ser e.com) :
    evs.map (fun e => E.pcs.ser e.com) = is.map (serW pf) := by
  subst hi
  rw [List.map_map]
  exact List.map_congr_left (fun e he => (h e he).symm)

theorem three_inv {P : PCS (ZMod p)} {evs : List (Ev P)} {i0 i1 i2 : Nat} {p0 p1 p2 : List (ZMod p)}
    (h : evs.map (·.i) = [i0, i1, i2]) (h' : evs.map (·.poly) = [p0, p1, p2]) :
    ∃ e0 e1 e2, evs = [e0, e1, e2] ∧ e0.i = i0 ∧ e1.i = i1 ∧ e2.i = i2 ∧ e0.poly = p0 ∧
      e1.poly = p1 ∧ e2.poly = p2 := by
  have hl : evs.length = 3 := by simpa using congrArg List.length h
  match evs, hl with
  | [e0, e1, e2], _ =>
    simp only [List.map_cons, List.map_nil, List.cons.injEq, and_true] at h h'
    exact ⟨e0, e1, e2, rfl, h.1, h.2.1, h.2.2, h'.1, h'.2.1, h'.2.2⟩

theorem fullRun {t : Tape (ZMod p) E.pcs.Rnd} {ord : Orders} {sw : List (List (ZMod p))}
    {pwNTT : List (Poly (ZMod p))}
    (hnd : cp.ctx.wSecond.Nodup) (hs : ∀ i ∈ cp.ctx.wSecond, i < cp.ctx.wCnt)
    (hsl : sw.length = cp.ctx.wCnt) {st : PState E.pcs} {next : Nat} {proj : List (List Bool)}
    {lm sm : Option (Poly (ZMod p) × ZMod p)} {pf : BProof (ZMod p) E.pcs} {vals : List Bytes}
    (h1 : proveRounds E cp t ord sw = .ok (some (st, next, proj, lm, sm)))
    (h2 : proveChecks E cp t pwNTT (st, next, proj, lm, sm) = .ok (some (pf, vals))) :
    ∃ sw2 wNTT lm sm all, FullRun E cp t ord pwNTT sw pf vals sw2 wNTT lm sm all := by
  obtain ⟨seed, sw2, tr1, s1, s2, s3, n1, ev1, ev2, evl, evs, R⟩ := proveRounds_inv hnd h1
  obtain ⟨ab, lb, lc, sb, x, u1, u2, u3, u4, u5, a1, a2, a3, k1, k2, all, eva, evL, evS, Q⟩ :=
    proveChecks_inv h2
  obtain ⟨PL, hn1, hlm, tL⟩ := R.lmask.piece
  obtain ⟨PS, hnx, hsm, tS⟩ := R.smask.piece
  have hnx' : next = nextOf cp.ctx := by rw [hnx, hn1]; rfl
  -- the arithmetic check
  have PA : Piece t st a1 (List.range' next (if cp.ctx.arith.length > 0 then 1 else 0)) eva ∧
      k1 = next + (if cp.ctx.arith.length > 0 then 1 else 0) ∧
      a1.tr = u1.bindAll .evalPoint (eva.map (fun e => E.pcs.ser e.com)) := by
    by_cases hn : cp.ctx.arith.length > 0
    · obtain ⟨e, rfl, b1, b2, b3, b4, b5, rfl⟩ := Q.arith hn
      simp only [if_pos hn]
      exact ⟨⟨by simp [b2], by simpa using b3, by simpa [b2] using b4, rfl, rfl⟩, b1, rfl⟩
    · obtain ⟨rfl, rfl, rfl⟩ := Q.arith0 (by omega)
      simp only [if_neg hn]
      exact ⟨⟨rfl, by simp, by simp, rfl, rfl⟩, rfl, rfl⟩
  obtain ⟨PA, hk1, tA⟩ := PA
  have PLn : Piece t a1 a2 (List.range' k1 (if cp.ctx.lin.length > 0 then 3 else 0)) evL ∧
      k2 = k1 + (if cp.ctx.lin.length > 0 then 3 else 0) ∧
      a2.tr = u3.bindAll .evalPoint (evL.map (fun e => E.pcs.ser e.com)) := by
    by_cases hn : cp.ctx.lin.length > 0
    · simp only [hn, decide_true] at hlm
      obtain ⟨m, rfl⟩ := Option.isSome_iff_exists.1 hlm
      obtain ⟨r, b1, b2, b3⟩ := Q.lin m rfl
      simp only [if_pos hn]
      obtain ⟨c1, c2, c3, c4, c5⟩ := b3.piece
      exact ⟨⟨c1, c2, c3, c4, c5⟩, b1, by rw [b3.out]⟩
    · simp only [hn, decide_false] at hlm
      have hnone : lm = none := by cases lm <;> simp_all
      obtain ⟨rfl, rfl, rfl⟩ := Q.lin0 hnone
      simp only [if_neg hn]
      exact ⟨⟨rfl, by simp, by simp, rfl, rfl⟩, rfl, rfl⟩
  obtain ⟨PLn, hk2, tLn⟩ := PLn
  have PSm : Piece t a2 a3 (List.range' k2 (if cp.ctx.sums.length > 0 then 3 else 0)) evS ∧
      a3.tr = u4.bindAll .evalPoint (evS.map (fun e => E.pcs.ser e.com)) := by
    by_cases hn : cp.ctx.sums.length > 0
    · simp only [hn, decide_true] at hsm
      obtain ⟨m, rfl⟩ := Option.isSome_iff_exists.1 hsm
      obtain ⟨r, b2, b3⟩ := Q.sum m rfl
      simp only [if_pos hn]
      obtain ⟨c1, c2, c3, c4, c5⟩ := b3.piece
      exact ⟨⟨c1, c2, c3, c4, c5⟩, by rw [b3.out]⟩
    · simp only [hn, decide_false] at hsm
      have hnone : sm = none := by cases sm <;> simp_all
      obtain ⟨rfl, rfl⟩ := Q.sum0 hnone
      simp only [if_neg hn]
      exact ⟨⟨rfl, by simp, by simp, rfl, rfl⟩, rfl⟩
  obtain ⟨PSm, tSm⟩ := PSm
  -- the table
  have hfi : ∀ i, i ∈ firstSlots cp.ctx sw.length ↔ i < cp.ctx.wCnt ∧ i ∉ cp.ctx.wSecond := by
    intro i; simp [firstSlots, hsl]
  let E' : List (Ev E.pcs) := ev1 ++ ev2 ++ evl ++ evs ++ eva ++ evL ++ evS
  have htbl : a3.tbl = putAll (List.replicate cp.ctx.batch none) E' := by
    rw [PSm.tbl, PLn.tbl, PA.tbl, PS.tbl, PL.tbl, R.second.tbl]
    simp only [R.first.tbl, putAll_append]
    rfl
  have l1 : s1.tbl.length = cp.ctx.batch := by rw [R.first.tbl, putAll_length]; simp
  have l2 : s2.tbl.length = cp.ctx.batch := by rw [R.second.tbl, putAll_length]; exact l1
  have l3 : s3.tbl.length = cp.ctx.batch := by rw [PL.tbl, putAll_length]; exact l2
  have l4 : st.tbl.length = cp.ctx.batch := by rw [PS.tbl, putAll_length]; exact l3
  have l5 : a1.tbl.length = cp.ctx.batch := by rw [PA.tbl, putAll_length]; exact l4
  have l6 : a2.tbl.length = cp.ctx.batch := by rw [PLn.tbl, putAll_length]; exact l5
  have l7 : a3.tbl.length = cp.ctx.batch := by rw [PSm.tbl, putAll_length]; exact l6
  have hE : ∀ e ∈ E', e.Made t ∧ e.i < cp.ctx.batch := by
    intro e he
    simp only [E', List.mem_append] at he
    rcases he with (((((he | he) | he) | he) | he) | he) | he
    · exact ⟨R.first.made e he, by simpa using R.first.lt e he⟩
    · exact ⟨R.second.made e he, by rw [← l1]; exact R.second.lt e he⟩
    · exact ⟨PL.made e he, by rw [← l2]; exact PL.lt e he⟩
    · exact ⟨PS.made e he, by rw [← l3]; exact PS.lt e he⟩
    · exact ⟨PA.made e he, by rw [← l4]; exact PA.lt e he⟩
    · exact ⟨PLn.made e he, by rw [← l5]; exact PLn.lt e he⟩
    · exact ⟨PSm.made e he, by rw [← l6]; exact PSm.lt e he⟩
  have hidx : E'.map (·.i) = firstSlots cp.ctx sw.length ++ cp.ctx.wSecond ++
      List.range' cp.ctx.wCnt (cp.ctx.batch - cp.ctx.wCnt) := by
    simp only [E', List.map_append, R.first.idx, R.second.idx, PL.idx, PS.idx, PA.idx, PLn.idx,
      PSm.idx, List.append_assoc]
    congr 2
    rw [hk2, hk1, hnx, hn1]
    simp only [List.range'_append_1, ← Nat.add_assoc]
    congr 1
    rw [batch_eq]; unfold nextOf; omega
  have hEnd : (E'.map (·.i)).Nodup := by
    rw [hidx, List.nodup_append, List.nodup_append]
    refine ⟨⟨List.nodup_range.filter _, hnd, ?_⟩, List.nodup_range', ?_⟩
    · intro a ha b hb hab
      exact ((hfi a).1 ha).2 (hab ▸ hb)
    · intro a ha b hb hab
      have hb := (List.mem_range'_1.1 hb).1
      rcases List.mem_append.1 ha with ha | ha
      · have := ((hfi a).1 ha).1; omega
      · have := hs a ha; omega
  obtain ⟨hal, hall⟩ := slots_inv _ _ Q.hall
  rw [l7] at hal
  have hat : ∀ e ∈ E', all[e.i]? = some (e.poly, e.com, e.op) := by
    intro e he
    apply hall
    rw [htbl]
    exact putAll_mem _ _ hEnd (fun e he => by simpa using (hE e he).2) e he
  have hser : ∀ e ∈ E', serW pf e.i = E.pcs.ser e.com := by
    intro e he
    unfold serW
    rw [Q.pfW, List.getElem?_map, hat e he]; rfl
  have hser' : ∀ l : List (Ev E.pcs), (∀ e ∈ l, e ∈ E') → ∀ e ∈ l, serW pf e.i = E.pcs.ser e.com :=
    fun l hl e he => hser e (hl e he)
  have m1 : ∀ e ∈ ev1, e ∈ E' := fun e he => by simp [E', he]
  have m2 : ∀ e ∈ ev2, e ∈ E' := fun e he => by simp [E', he]
  have m3 : ∀ e ∈ evl, e ∈ E' := fun e he => by simp [E', he]
  have m4 : ∀ e ∈ evs, e ∈ E' := fun e he => by simp [E', he]
  have m5 : ∀ e ∈ eva, e ∈ E' := fun e he => by simp [E', he]
  have m6 : ∀ e ∈ evL, e ∈ E' := fun e he => by simp [E', he]
  have m7 : ∀ e ∈ evS, e ∈ E' := fun e he => by simp [E', he]
  -- the transcript
  obtain ⟨v0, v1, v2, v3, v4, v5, hch, c0, c1, c2, c3, c4, c5⟩ :=
    chals_steps E.hash ((firstSlots cp.ctx cp.ctx.wCnt).map (serW pf)) (msgs2 E cp.ctx pf)
    ((List.range' (nextOf cp.ctx) (pf.witness.length - nextOf cp.ctx)).map (serW pf))
  have hch' : chalsOf E cp.ctx pf = ⟨v0, v1, v2, v3, v4, v5⟩ := hch
  have hseed := R.hseed
  rw [R.first.tr, map_ser_idx ev1 _ R.first.idx (hser' _ m1), hsl, c0 _ rfl] at hseed
  simp only [Option.some.injEq, Prod.mk.injEq] at hseed
  obtain ⟨rfl, rfl⟩ := hseed
  have hst : st.tr = ⟨((firstSlots cp.ctx cp.ctx.wCnt).map (serW pf)).map (fun b => (Chal.projConst, b))
      ++ (msgs2 E cp.ctx pf).map (fun b => (Chal.arithBatchConst, b)), [v0]⟩ := by
    rw [tS pf (hser' _ m4), tL pf (hser' _ m3), R.second.tr,
      map_ser_idx ev2 _ R.second.idx (hser' _ m2), Transcript.bindAll_append,
      Transcript.bindAll_append, ← Q.pfL, ← Q.pfS, hn1, ← List.append_assoc]
    rw [Transcript.bindAll_eq _ _ _ (by simp [Chal.pos])]
    rfl
  have hab := Q.hab
  rw [hst, c1] at hab
  simp only [Option.some.injEq, Prod.mk.injEq] at hab
  obtain ⟨rfl, rfl⟩ := hab
  rw [Transcript.bindAll_eq _ _ _ (by simp [Chal.pos])] at tA
  have hlb := Q.hlb
  rw [tA, c2] at hlb
  simp only [Option.some.injEq, Prod.mk.injEq] at hlb
  obtain ⟨rfl, rfl⟩ := hlb
  have hlc := Q.hlc
  rw [c3] at hlc
  simp only [Option.some.injEq, Prod.mk.injEq] at hlc
  obtain ⟨rfl, rfl⟩ := hlc
  rw [Transcript.bindAll_eq _ _ _ (by simp [Chal.pos])] at tLn
  simp only [List.append_assoc, ← List.map_append] at tLn
  simp only [← List.append_assoc] at tLn
  have hsb := Q.hsb
  rw [tLn, c4] at hsb
  simp only [Option.some.injEq, Prod.mk.injEq] at hsb
  obtain ⟨rfl, rfl⟩ := hsb
  rw [Transcript.bindAll_eq _ _ _ (by simp [Chal.pos])] at tSm
  simp only [List.append_assoc, ← List.map_append] at tSm
  simp only [← List.append_assoc] at tSm
  have hwl : pf.witness.length = cp.ctx.batch := by rw [Q.pfW]; simp [hal]
  have hSx : (eva ++ evL ++ evS).map (fun e => E.pcs.ser e.com) =
      (List.range' (nextOf cp.ctx) (pf.witness.length - nextOf cp.ctx)).map (serW pf) := by
    apply map_ser_idx
    · simp only [List.map_append, PA.idx, PLn.idx, PSm.idx, List.append_assoc]
      rw [hk2, hk1, hnx', hwl]
      simp only [List.range'_append_1]
      have := batch_eq cp.ctx
      congr 1
      omega
    · intro e he
      simp only [List.mem_append] at he
      rcases he with (he | he) | he
      · exact hser e (m5 e he)
      · exact hser e (m6 e he)
      · exact hser e (m7 e he)
  have hx := Q.hx
  rw [tSm, hSx, c5] at hx
  simp only [Option.some.injEq, Prod.mk.injEq] at hx
  obtain ⟨rfl, rfl⟩ := hx
  -- contents
  have hwn : a1.wNTT = st.wNTT ∧ a2.wNTT = st.wNTT ∧ st.wNTT = s2.wNTT := by
    refine ⟨PA.wNTT, ?_, ?_⟩
    · rw [PLn.wNTT, PA.wNTT]
    · rw [PS.wNTT, PL.wNTT]
  have inv : ∀ (l : List (Ev E.pcs)) (is : List Nat), l.map (·.i) = is → ∀ i ∈ is, ∃ e ∈ l, e.i = i := by
    rintro l is rfl i hi
    simpa using hi
  refine ⟨sw2, st.wNTT, lm, sm, all, ?_⟩
  have hpe := R.hproj
  refine ⟨by rw [Q.hvals, hch'], hal, Q.pfW, Q.pfL, Q.pfS, ?_, by rw [hch']; exact Q.ev,
    by rw [hch', ← hpe]; exact R.fill, ?_, ?_, ?_, ?_, ?_, ?_, ?_, hlm, hsm⟩
  · intro i hi
    have him : i ∈ E'.map (·.i) := by
      rw [hidx]
      by_cases hiw : i < cp.ctx.wCnt
      · by_cases his : i ∈ cp.ctx.wSecond
        · simp [his]
        · simp [(hfi i).2 ⟨hiw, his⟩]
      · simp only [List.mem_append, List.mem_range'_1]; right; omega
    obtain ⟨e, he, rfl⟩ := List.mem_map.1 him
    exact ⟨_, hat e he, (hE e he).1⟩
  · rw [hwn.2.2, R.second.len]; simp [R.first.len]
  · intro i hi
    by_cases his : i ∈ cp.ctx.wSecond
    · obtain ⟨e, he, rfl⟩ := inv _ _ R.second.idx i his
      obtain ⟨w, ecd, q, b1, b2, b3⟩ := R.second.wit e he
      rw [if_pos his]
      exact ⟨w, ecd, q, e.poly, _, b1, by rw [hwn.2.2]; exact b3, b2, hat e (m2 e he)⟩
    · obtain ⟨e, he, rfl⟩ := inv _ _ R.first.idx i ((hfi i).2 ⟨hi, his⟩)
      obtain ⟨w, ecd, q, b1, b2, b3⟩ := R.first.wit e he
      rw [if_neg his]
      refine ⟨w, ecd, q, e.poly, _, b1, ?_, b2, hat e (m1 e he)⟩
      rw [hwn.2.2, R.second.other _ his]; exact b3
  · intro hn
    obtain ⟨e, m, rfl, rfl, b1, b2, b3, b4, b5, b6, b7⟩ := R.lmask.some hn
    exact ⟨m, e.poly, _, rfl, b5, b6, by rw [← b2]; exact hat e (m3 e (by simp))⟩
  · intro hn
    obtain ⟨e, m, rfl, rfl, b1, b2, b3, b4, b5, b6, b7⟩ := R.smask.some hn
    exact ⟨m, e.poly, _, rfl, b5, b6, by rw [← hn1, ← b2]; exact hat e (m4 e (by simp))⟩
  · intro hn
    obtain ⟨e, rfl, b1, b2, b3, b4, b5, b6⟩ := Q.arith hn
    exact ⟨e.poly, _, by rw [hch']; exact b5, by rw [← hnx', ← b2]; exact hat e (m5 e (by simp))⟩
  · intro m hm
    obtain ⟨r, b1, b2, b3⟩ := Q.lin m hm
    obtain ⟨e0, e1, e2, rfl, hi0, hi1, hi2, hp0, hp1, hp2⟩ := three_inv b3.idx b3.polys
    rw [hwn.1] at b2
    rw [← hnx', ← hk1, hch', ← hpe]
    refine ⟨r, (e0.com, e0.op), (e1.com, e1.op), (e2.com, e2.op), b2, ?_, ?_, ?_⟩
    · rw [← hi0, ← hp0]; exact hat e0 (m6 _ (by simp))
    · rw [← hi1, ← hp1]; exact hat e1 (m6 _ (by simp))
    · rw [← hi2, ← hp2]; exact hat e2 (m6 _ (by simp))
  · intro m hm
    obtain ⟨r, b2, b3⟩ := Q.sum m hm
    obtain ⟨e0, e1, e2, rfl, hi0, hi1, hi2, hp0, hp1, hp2⟩ := three_inv b3.idx b3.polys
    rw [hwn.2.1] at b2
    rw [← hnx', ← hk1, ← hk2, hch']
    refine ⟨r, (e0.com, e0.op), (e1.com, e1.op), (e2.com, e2.op), b2, ?_, ?_, ?_⟩
    · rw [← hi0, ← hp0]; exact hat e0 (m7 _ (by simp))
    · rw [← hi1, ← hp1]; exact hat e1 (m7 _ (by simp))
    · rw [← hi2, ← hp2]; exact hat e2 (m7 _ (by simp))

end

end Ringo
