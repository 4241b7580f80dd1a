import Verif.Props.Complete
import Verif.Proof.Assign

/-!
# C52: what `Prove` writes to

The slices the caller assigned are the rows of the tables of `prvCollect`, at the slots of their
handles (`C26_alignment`).  All later writes to witness elements go through the same tables.
-/

namespace Ringo

open Finset

set_option linter.unusedSectionVars false

section
variable {p : Nat} [Fact p.Prime]

theorem foldlM_pres_mem {σ α : Type} {f : σ → α → Go σ} (P : σ → Prop) :
    ∀ (l : List α) (_ : ∀ s, ∀ a ∈ l, ∀ s', P s → f s a = .ok s' → P s')
      (s s' : σ), P s → l.foldlM f s = .ok s' → P s'
  | [], _, s, s', hs, h => by injection h with h; rw [← h]; exact hs
  | a :: l, hf, s, s', hs, h => by
    rw [List.foldlM_cons] at h
    obtain ⟨s1, h1, h⟩ := bind_ok_inv h
    exact foldlM_pres_mem P l (fun s b hb => hf s b (by simp [hb])) s1 s' (hf s a (by simp) s1 hs h1) h

/-- The first `n` rows of the two tables are the same. -/
def SameBelow (n : Nat) (a b : List (List (ZMod p))) : Prop := ∀ i < n, b[i]? = a[i]?

theorem SameBelow.set {n i : Nat} {a b : List (List (ZMod p))} {x : List (ZMod p)}
    (h : SameBelow n a b) (hi : n ≤ i) : SameBelow n a (b.set i x) := by
  intro j hj
  rw [List.getElem?_set_ne (by omega), h j hj]

theorem set2_below {n a i : Nat} {s t t' : List (List (ZMod p))} {x : ZMod p}
    (hs : SameBelow n s t) (ha : n ≤ a) (h : set2 t a i x = .ok t') : SameBelow n s t' := by
  unfold set2 at h
  obtain ⟨row, h1, h⟩ := bind_ok_inv h
  obtain ⟨row', h2, h⟩ := bind_ok_inv h
  obtain ⟨-, rfl⟩ := setIdx_inv h
  exact hs.set ha

/-- The slots written by the norm constraints come after those of the circuit's fields. -/
structure WritesAbove (pw0 w0 : Nat) (ctx : Context (ZMod p)) : Prop where
  pwLe : pw0 ≤ ctx.pwCnt
  wLe : w0 ≤ ctx.wCnt
  inf : ∀ e ∈ ctx.infDcmp, ∀ d ∈ e.dcmp, w0 ≤ d
  two : ∀ e ∈ ctx.twoDcmp, pw0 ≤ e.base ∧ pw0 ≤ e.mask ∧ w0 ≤ e.dcmp
  proj : ∀ e ∈ ctx.projWit, w0 ≤ e.proj
  projInf : ∀ e ∈ ctx.projInf, w0 ≤ e.dcmp

theorem WritesAbove.addArith {pw0 w0 : Nat} {ctx : Context (ZMod p)} (h : WritesAbove pw0 w0 ctx)
    (c : Constraint (ZMod p)) : WritesAbove pw0 w0 (ctx.addArith c) :=
  ⟨h.pwLe, h.wLe, h.inf, h.two, h.proj, h.projInf⟩

theorem WritesAbove.ternary {pw0 w0 : Nat} (l : List Nat) :
    ∀ {ctx : Context (ZMod p)}, WritesAbove pw0 w0 ctx →
      WritesAbove pw0 w0 (l.foldl (fun ctx d => ctx.addArith (Context.ternary d)) ctx) := by
  induction l with
  | nil => intro ctx h; exact h
  | cons d l ih => intro ctx h; rw [List.foldl_cons]; exact ih (h.addArith _)

theorem WritesAbove.apply {pw0 w0 : Nat} {ctx ctx' : Context (ZMod p)} (h : WritesAbove pw0 w0 ctx)
    (op : CtxOp (ZMod p)) (ho : ctx.apply op = .ok ctx') : WritesAbove pw0 w0 ctx' := by
  obtain ⟨h1, h2, h3, h4, h5, h6⟩ := h
  cases op with
  | arith c => cases ho; exact ⟨h1, h2, h3, h4, h5, h6⟩
  | sum c s => cases ho; exact ⟨h1, h2, h3, h4, h5, h6⟩
  | lin o i n => cases ho; exact ⟨h1, h2, h3, h4, h5, h6⟩
  | inf w b =>
    simp only [Context.apply, Context.addInf] at ho
    split at ho
    · cases ho; exact ⟨h1, h2, h3, h4, h5, h6⟩
    · split at ho
      · cases ho; exact ⟨h1, h2, h3, h4, h5, h6⟩
      · split at ho
        · cases ho; exact ⟨h1, h2, h3, h4, h5, h6⟩
        · obtain ⟨base, -, ho⟩ := bind_ok_inv ho
          cases ho
          refine WritesAbove.addArith (WritesAbove.ternary _ ?_) _
          refine ⟨h1, ?_, ?_, h4, h5, h6⟩
          · simp only; omega
          · intro e he d hd
            simp only [List.mem_append, List.mem_filter, List.mem_singleton] at he
            rcases he with ⟨he, -⟩ | rfl
            · exact h3 e he d hd
            · simp only [List.mem_map, List.mem_range] at hd
              obtain ⟨k, -, rfl⟩ := hd
              omega
  | sq w b =>
    cases ho
    refine ⟨by simp only [Context.addSq, Context.addArith, Context.addSum]; omega,
      by simp only [Context.addSq, Context.addArith, Context.addSum]; omega, h3, ?_, h5, h6⟩
    intro e he
    simp only [Context.addSq, Context.addArith, Context.addSum, List.mem_append, List.mem_filter,
      List.mem_singleton] at he
    rcases he with ⟨he, -⟩ | rfl
    · exact h4 e he
    · refine ⟨h1, ?_, h2⟩
      simp only; omega
  | approx w b =>
    simp only [Context.apply, Context.addApprox] at ho
    obtain ⟨base, -, ho⟩ := bind_ok_inv ho
    cases ho
    refine ⟨h1, by simp only [Context.addLin]; omega, h3, h4, ?_, ?_⟩
    · intro e he
      simp only [Context.addLin, List.mem_append, List.mem_filter, List.mem_singleton] at he
      rcases he with ⟨he, -⟩ | rfl
      · exact h5 e he
      · exact h2
    · intro e he
      simp only [Context.addLin, List.mem_append, List.mem_filter, List.mem_singleton] at he
      rcases he with ⟨he, -⟩ | rfl
      · exact h6 e he
      · simp only; omega

theorem WritesAbove.define {pw0 w0 : Nat} (ops : List (CtxOp (ZMod p))) :
    ∀ {ctx ctx' : Context (ZMod p)}, WritesAbove pw0 w0 ctx → ctx.define ops = .ok ctx' →
      WritesAbove pw0 w0 ctx' := by
  induction ops with
  | nil => intro ctx ctx' h ho; cases ho; exact h
  | cons op ops ih =>
    intro ctx ctx' h ho
    unfold Context.define at ho
    rw [List.foldlM_cons] at ho
    obtain ⟨c1, h1, h2⟩ := bind_ok_inv ho
    exact ih (h.apply op h1) h2

theorem fillInf_below {n N : Nat} {order : List InfEntry} {sw sw' : List (List (ZMod p))}
    (ho : ∀ e ∈ order, ∀ d ∈ e.dcmp, n ≤ d) (h : fillInf N order sw = .ok sw') : SameBelow n sw sw' := by
  unfold fillInf at h
  refine foldlM_pres_mem (SameBelow n sw) _ ?_ _ _ (fun i _ => rfl) h
  intro s e he s' hs h
  obtain ⟨base, -, h⟩ := bind_ok_inv h
  rw [forRange_one] at h
  refine foldlM_pres (SameBelow n sw) ?_ _ _ _ hs h
  intro s i s' hs h
  obtain ⟨x, -, h⟩ := bind_ok_inv h
  refine foldlM_pres_mem (SameBelow n sw) _ ?_ _ _ hs h
  intro s wj hwj s' hs h
  obtain ⟨d, -, h⟩ := bind_ok_inv h
  exact set2_below hs (ho e he _ (List.fst_mem_of_mem_zipIdx hwj)) h

theorem fillTwoPub_below {n : Nat} {e : TwoEntry} {s pw pw' : List (List (ZMod p))}
    (he : n ≤ e.base ∧ n ≤ e.mask) (hs : SameBelow n s pw) (h : fillTwoPub e pw = .ok pw') :
    SameBelow n s pw' := by
  unfold fillTwoPub at h
  obtain ⟨base, -, h⟩ := bind_ok_inv h
  rw [forRange_one] at h
  refine foldlM_pres (SameBelow n s) ?_ _ _ _ hs h
  intro s i s' hs h
  obtain ⟨b, -, h⟩ := bind_ok_inv h
  obtain ⟨s1, h1, h⟩ := bind_ok_inv h
  exact set2_below (set2_below hs he.1 h1) he.2 h

theorem fillTwo_below {m n N : Nat} {order : List TwoEntry}
    {s s' : List (List (ZMod p)) × List (List (ZMod p))}
    (ho : ∀ e ∈ order, m ≤ e.base ∧ m ≤ e.mask ∧ n ≤ e.dcmp) (h : fillTwo N order s = .ok s') :
    SameBelow m s.1 s'.1 ∧ SameBelow n s.2 s'.2 := by
  unfold fillTwo at h
  obtain ⟨r, h1, h⟩ := bind_ok_inv h
  injection h with h
  subst h
  refine foldlM_pres_mem (fun r : List (List (ZMod p)) × List (List (ZMod p)) × Nat =>
    SameBelow m s.1 r.1 ∧ SameBelow n s.2 r.2.1) _ ?_ _ _ ⟨fun _ _ => rfl, fun _ _ => rfl⟩ h1
  intro s1 e he s' hs h
  obtain ⟨o1, o2, o3⟩ := ho e he
  obtain ⟨base, -, h⟩ := bind_ok_inv h
  obtain ⟨pw, h2, h⟩ := bind_ok_inv h
  obtain ⟨sq, -, h⟩ := bind_ok_inv h
  obtain ⟨sw, h3, h⟩ := bind_ok_inv h
  injection h with h
  subst h
  refine ⟨fillTwoPub_below ⟨o1, o2⟩ hs.1 h2, ?_⟩
  rw [forRange_one] at h3
  refine foldlM_pres (SameBelow n s.2) ?_ _ _ _ hs.2 h3
  intro t i t' ht h
  obtain ⟨d, -, h⟩ := bind_ok_inv h
  exact set2_below ht o3 h

theorem fillProj_below {n : Nat} {ord : Orders} {proj : List (List Bool)} {sw sw' : List (List (ZMod p))}
    (h1 : ∀ e ∈ ord.proj, n ≤ e.proj) (h2 : ∀ e ∈ ord.projInf, n ≤ e.dcmp)
    (h : fillProj ord proj sw = .ok sw') : SameBelow n sw sw' := by
  unfold fillProj at h
  obtain ⟨s1, h3, h⟩ := bind_ok_inv h
  have hs1 : SameBelow n sw s1 := by
    refine foldlM_pres_mem (SameBelow n sw) _ ?_ _ _ (fun i _ => rfl) h3
    intro s e he s' hs h
    obtain ⟨out, -, h⟩ := bind_ok_inv h
    obtain ⟨v, -, h⟩ := bind_ok_inv h
    obtain ⟨out', -, h⟩ := bind_ok_inv h
    obtain ⟨-, rfl⟩ := setIdx_inv h
    exact hs.set (h1 e he)
  refine foldlM_pres_mem (SameBelow n sw) _ ?_ _ _ hs1 h
  intro s e he s' hs h
  obtain ⟨base, -, h⟩ := bind_ok_inv h
  rw [forRange_one] at h
  refine foldlM_pres (SameBelow n sw) ?_ _ _ _ hs h
  intro s i s' hs h
  obtain ⟨x, -, h⟩ := bind_ok_inv h
  rw [forRange_one] at h
  refine foldlM_pres (SameBelow n sw) ?_ _ _ _ hs h
  intro s j s' hs h
  obtain ⟨d, -, h⟩ := bind_ok_inv h
  exact set2_below hs (h2 e he) h

/-- **C52, partial.**  Missing from the full claim: assignments whose slices hold more witnesses than
at compile time (`C52_refuted`).

For every circuit `v` (any calls `ops`, whatever they constrain) and every assignment `a` of the same
shape, honest or not: in the tables `pw`, `sw` the prover works on after filling in the digits of the
norm constraints, and in `sw2` after the projections, the row of every field of the circuit is exactly
the vector assigned to it. -/
theorem C52_partial {cp : Compilation (ZMod p)} {N ty : Nat} (ops : List (CtxOp (ZMod p)))
    (v a : Val (ZMod p)) (hset : Settable v) (hshape : SameShape v a) (hfull : FullRank N a)
    (hc : compile N ty (firstWalk v ⟨0, 0⟩).2.1.pw (firstWalk v ⟨0, 0⟩).2.1.w ops = .ok cp)
    (h62 : cp.ctx.wCnt ≤ 2 ^ 62 ∧ cp.ctx.pwCnt ≤ 2 ^ 62)
    (hp : 2 * cp.ctx.wCnt + 1 < p ∧ 2 * cp.ctx.pwCnt + 1 < p)
    (ord : Orders) (hord : GoodOrders cp.ctx ord) (pw sw : List (List (ZMod p)))
    (h : assign cp ord a = .ok (some (pw, sw))) :
    AssignedTo v a pw sw ∧
    ∀ proj sw2, projStep cp ord proj sw = .ok sw2 → AssignedTo v a pw sw2 := by
  have hdef := (compile_inv hc).1
  have hi := CtxInv.define ops (CtxInv.new N ty _ _) hdef
  have hw := WritesAbove.define ops (ctx := newContext (ZMod p) N ty _ _)
    (⟨le_rfl, le_rfl, by simp [newContext], by simp [newContext], by simp [newContext],
      by simp [newContext]⟩ :
      WritesAbove (firstWalk v ⟨0, 0⟩).2.1.pw (firstWalk v ⟨0, 0⟩).2.1.w _) hdef
  obtain ⟨pw0, sw0, vpw, c1, -, c3, c4, -, c6, c7, c8, c9⟩ := C26_alignment N v a hset hshape
    hfull cp.ctx.pwCnt cp.ctx.wCnt hi.w hi.pw h62 hp
  obtain ⟨pw1, sw1, s1, d1, d2, d3, -, -⟩ := assign_inv h
  rw [hi.rank] at d1 d2 d3
  rw [c1] at d1
  cases d1
  have e1 := fillInf_below (n := (firstWalk v ⟨0, 0⟩).2.1.w)
    (fun e he => hw.inf e (hord.inf.mem_iff.1 he)) d2
  obtain ⟨e2, e3⟩ := fillTwo_below (m := (firstWalk v ⟨0, 0⟩).2.1.pw) (n := (firstWalk v ⟨0, 0⟩).2.1.w)
    (fun e he => hw.two e (hord.two.mem_iff.1 he)) d3
  have e4 : SameBelow (firstWalk v ⟨0, 0⟩).2.1.w sw0 sw := fun i hi => by
    rw [e3 i hi]; exact e1 i hi
  have hle := hi.w
  have hple := hi.pw
  have keep : ∀ sw', SameBelow (firstWalk v ⟨0, 0⟩).2.1.w sw0 sw' → AssignedTo v a pw sw' := by
    intro sw' hsw
    have cc := firstWalk_compiled v ⟨0, 0⟩ hset
    constructor
    · intro path s i w hpath
      obtain ⟨s', i', hd, id, f1, f2, f3⟩ := c6 path s i w hpath
      obtain ⟨n, -, n2, n3⟩ := cc.wit _ _ _ _ f1
      have hdec := (C25_decode p (UInt64.ofNat n) (by rw [ofNat62 (by omega)]; omega)
        (by rw [ofNat62 (by omega)]; omega)).1
      rw [← n3, f2] at hdec
      cases hdec
      refine ⟨s', i', hd, _, f1, f2, ?_⟩
      rw [← f3]
      exact hsw _ (by rw [ofNat62 (by omega)]; exact n2)
    · intro path s i w hpath
      obtain ⟨s', i', hd, id, f1, f2, f3⟩ := c7 path s i w hpath
      obtain ⟨n, -, n2, n3⟩ := cc.pub _ _ _ _ f1
      have hdec := (C25_decode p (UInt64.ofNat n) (by rw [ofNat62 (by omega)]; omega)
        (by rw [ofNat62 (by omega)]; omega)).2
      rw [← n3, f2] at hdec
      cases hdec
      refine ⟨s', i', hd, _, f1, f2, ?_⟩
      rw [← f3]
      exact e2 _ (by rw [ofNat62 (by omega)]; exact n2)
  refine ⟨keep sw e4, fun proj sw2 hpr => keep sw2 ?_⟩
  unfold projStep at hpr
  split at hpr
  · have e5 := fillProj_below (n := (firstWalk v ⟨0, 0⟩).2.1.w)
      (fun e he => hw.proj e (hord.proj.mem_iff.1 he))
      (fun e he => hw.projInf e (hord.projInf.mem_iff.1 he)) hpr
    exact fun i hi => by rw [e5 i hi]; exact e4 i hi
  · cases hpr; exact e4

end

theorem compile52 : ∃ cp, compile (p := 193) 8 0 0 1 [.inf 0 5] = .ok cp ∧
    cp.ctx.rank = 8 ∧ cp.ctx.pwCnt = 0 ∧ cp.ctx.wCnt = 4 ∧ cp.ctx.infDcmp = [⟨0, 5, [1, 2, 3]⟩] ∧
    cp.ctx.twoDcmp = [] := by
  have h5 : decomposeBase (5 : Int).toNat = .ok [3, 1, 1] := base5
  have hdef : ∃ ctx, (newContext (ZMod 193) 8 0 0 1).define [.inf 0 5] = .ok ctx ∧ ctx.embRank = 32 ∧
      ctx.rank = 8 ∧ ctx.pwCnt = 0 ∧ ctx.wCnt = 4 ∧ ctx.infDcmp = [⟨0, 5, [1, 2, 3]⟩] ∧
      ctx.twoDcmp = [] := by
    refine ⟨_, by
      unfold Context.define
      rw [List.foldlM_cons]
      simp only [Context.apply]
      unfold Context.addInf; rw [if_neg (by norm_num), if_neg (by norm_num),
        if_neg (by norm_num), h5]; rfl, rfl, rfl, rfl, rfl, rfl, rfl⟩
  obtain ⟨ctx, a1, a2, a3⟩ := hdef
  obtain ⟨cp, h1, h2⟩ := compile_total (p := 193) (N := 8) (ty := 0) (pw0 := 0) (w0 := 1)
    (ops := [.inf 0 5]) (K := 3) (Ke := 5) rfl (by norm_num) (by norm_num) a1 a2 (by norm_num)
    (by norm_num)
  exact ⟨cp, h1, by rw [h2]; exact a3⟩

/-- A circuit `&struct{ A []Witness }` assigned the vectors `ws`. -/
def circ52 (ws : List (List (ZMod 193))) : Val (ZMod 193) :=
  .ptr (.fields [.fields (ws.map (.wit true true))])

/-- **C52 fails.**  The circuit `&struct{ A []Witness }` is compiled with one witness in `A`, whose
infinity norm is bounded by 5; then it is proved with two.  The type is the same, so `Prove` does not
object.  The second vector of the caller, `[7, 7, ...]`, takes the slot of a digit of the norm
constraint, and `Prove` overwrites its elements with that digit, `[1, 1, ...]`. -/
theorem C52_refuted : ∃ cp, compile (p := 193) 8 0
      (firstWalk (circ52 [[]]) ⟨0, 0⟩).2.1.pw (firstWalk (circ52 [[]]) ⟨0, 0⟩).2.1.w [.inf 0 5] = .ok cp ∧
    ∃ ord, GoodOrders cp.ctx ord ∧
    (∃ pw sw, prvCollect 8 cp.ctx.pwCnt cp.ctx.wCnt
      (circ52 [List.replicate 8 5, List.replicate 8 7]) = .ok (pw, sw, false) ∧
      sw[1]? = some (List.replicate 8 7)) ∧
    ∃ pw sw, assign cp ord (circ52 [List.replicate 8 5, List.replicate 8 7]) = .ok (some (pw, sw)) ∧
      sw[1]? = some (List.replicate 8 1) := by
  obtain ⟨cp, h1, h2, h3, h4, h5, h6⟩ := compile52
  have hcol : prvCollect 8 0 4 (circ52 [List.replicate 8 5, List.replicate 8 7]) =
      .ok ([], [List.replicate 8 5, List.replicate 8 7, List.replicate 8 0, List.replicate 8 0], false) := by
    decide +kernel
  refine ⟨cp, h1, ⟨cp.ctx.infDcmp, cp.ctx.twoDcmp, cp.ctx.projWit, cp.ctx.projInf⟩,
    ⟨.refl _, .refl _, .refl _, .refl _⟩, ⟨_, _, by rw [h3, h4]; exact hcol, rfl⟩, ?_⟩
  unfold assign
  rw [h2, h3, h4, hcol, go_bind_ok]
  simp only [Bool.false_eq_true, if_false, h5, h6]
  have hf : fillInf (p := 193) 8 [⟨0, 5, [1, 2, 3]⟩]
      [List.replicate 8 5, List.replicate 8 7, List.replicate 8 0, List.replicate 8 0] =
      .ok [List.replicate 8 5, List.replicate 8 1, List.replicate 8 1, List.replicate 8 1] := by
    decide +kernel
  rw [hf]
  exact ⟨_, _, rfl, rfl⟩

/-- The hypotheses of `C52_partial` are met by the same circuit assigned one vector. -/
example : Settable (circ52 [[]]) ∧ SameShape (circ52 [[]]) (circ52 [List.replicate 8 5]) ∧
    FullRank 8 (circ52 [List.replicate 8 5]) ∧
    ∃ cp, compile (p := 193) 8 0 (firstWalk (circ52 [[]]) ⟨0, 0⟩).2.1.pw
      (firstWalk (circ52 [[]]) ⟨0, 0⟩).2.1.w [.inf 0 5] = .ok cp ∧ cp.ctx.wCnt = 4 ∧ cp.ctx.pwCnt = 0 ∧
    ∃ ord, GoodOrders cp.ctx ord ∧ ∃ pw sw, assign cp ord (circ52 [List.replicate 8 5]) = .ok (some (pw, sw)) := by
  have leaf : ∀ (w0 : List (ZMod 193)) path s i w, ((circ52 [w0]).get? path = some (.pub s i w) ∨
      (circ52 [w0]).get? path = some (.wit s i w)) → s = true ∧ i = true ∧ w = w0 := by
    intro w0 path s i w h
    unfold circ52 at h
    rcases path with _ | ⟨_ | j, _ | ⟨_ | k, _ | ⟨_ | l, _ | _⟩⟩⟩ <;>
      simp [get?_nil, get?_ptr, get?_ptr_succ, get?_cons_zero, get?_cons_succ, get?_fields_nil,
        get?_wit] at h <;> tauto
  obtain ⟨cp, h1, h2, h3, h4, h5, h6⟩ := compile52
  refine ⟨fun path s i w h => (leaf _ path s i w h).1, .ptr (.cons (.cons .wit .nil) .nil),
    fun path s i w h => ⟨(leaf _ path s i w h).2.1, by rw [(leaf _ path s i w h).2.2]; rfl⟩, cp, h1, h4, h3,
    ⟨cp.ctx.infDcmp, cp.ctx.twoDcmp, cp.ctx.projWit, cp.ctx.projInf⟩,
    ⟨.refl _, .refl _, .refl _, .refl _⟩, ?_⟩
  unfold assign
  have hcol : prvCollect 8 0 4 (circ52 [List.replicate 8 5]) =
      .ok ([], [List.replicate 8 5, List.replicate 8 0, List.replicate 8 0, List.replicate 8 0], false) := by
    decide +kernel
  have hf : fillInf (p := 193) 8 [⟨0, 5, [1, 2, 3]⟩]
      [List.replicate 8 5, List.replicate 8 0, List.replicate 8 0, List.replicate 8 0] =
      .ok [List.replicate 8 5, List.replicate 8 1, List.replicate 8 1, List.replicate 8 1] := by
    decide +kernel
  rw [h2, h3, h4, hcol, go_bind_ok]
  simp only [Bool.false_eq_true, if_false, h5, h6]
  rw [hf]
  exact ⟨_, _, rfl⟩

end Ringo
