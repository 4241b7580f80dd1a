import Verif.Spec.Sound
import Verif.Props.LinSum
import Verif.Proof.Verify
import Verif.Props.Protocol2

/-!
# C89: soundness of Buckler over a commitment scheme that fixes the values
-/

namespace Ringo

open Finset Polynomial

section
variable {p : Nat} [Fact p.Prime] {E : Env (ZMod p)} {cp : Compilation (ZMod p)}

/-- `Verify` is `verifyWith` the hashes. -/
theorem verify_verifyWith {two : List TwoEntry} {c : Circ (ZMod p)} {pf : BProof (ZMod p) E.pcs}
    (h : verify E cp two c pf = .ok true) :
    ∃ ch l s n, challengesV E cp pf = .ok (some (ch, l, s, n)) ∧ verifyWith E cp two c pf ch = .ok true := by
  have h0 := h
  unfold verify at h
  split at h
  · cases h
  rename_i hty
  obtain ⟨a, h1, h⟩ := bind_ok_inv h
  cases a with
  | none => cases h
  | some pw =>
  simp only at h
  obtain ⟨pwEcd, h2, h⟩ := bind_ok_inv h
  obtain ⟨c', h3, h⟩ := bind_ok_inv h
  cases c' with
  | none => cases h
  | some c' =>
  obtain ⟨ch, l, s, n⟩ := c'
  refine ⟨ch, l, s, n, h3, ?_⟩
  unfold verifyWith
  rw [if_neg hty, h1, go_bind_ok]
  simp only
  rw [h2, go_bind_ok, h3, go_bind_ok]
  exact h

/-- What an accepting run consists of. -/
theorem verifyWith_true_inv {two : List TwoEntry} {c : Circ (ZMod p)} {pf : BProof (ZMod p) E.pcs}
    {ch : Challenges} (h : verifyWith E cp two c pf ch = .ok true) :
    ∃ pw pwEcd ch0 l s n pwEvals, assignV cp two c.val = .ok (some pw) ∧
      pw.mapM (fun v => cp.ecd.encode v) = .ok pwEcd ∧
      challengesV E cp pf = .ok (some (ch0, l, s, n)) ∧
      E.pcs.verify (E.setBytes ch.x) pf.witness pf.evals pf.evalProof = .ok true ∧
      pwEcd.mapM (fun e => e.evaluate (E.setBytes ch.x)) = .ok pwEvals ∧
      (cp.ctx.arith.length > 0 → ∃ quo, idx pf.evals n = .ok quo ∧
        arithCheckV cp.ctx (E.setBytes ch.ab) (expU64 (E.setBytes ch.x) cp.ctx.rank - 1) quo
          pf.evals pwEvals = .ok true) ∧
      (cp.ctx.lin.length > 0 → ∃ quo lo hi m t,
        idx pf.evals (n + (if cp.ctx.arith.length > 0 then 1 else 0)) = .ok quo ∧
        idx pf.evals (n + (if cp.ctx.arith.length > 0 then 1 else 0) + 1) = .ok lo ∧
        idx pf.evals (n + (if cp.ctx.arith.length > 0 then 1 else 0) + 2) = .ok hi ∧
        l = some m ∧ pf.linMaskSum = some t ∧
        linCheckV cp E.users (projMatrix E.xof ch.proj cp.ctx.rank) E.pcs.rank
          (E.setBytes ch.lb) (E.setBytes ch.lc) m (E.setBytes ch.x)
          (expU64 (E.setBytes ch.x) cp.ctx.rank - 1) t quo lo hi pf.evals = .ok true) ∧
      (cp.ctx.sums.length > 0 → ∃ quo lo hi m t,
        idx pf.evals (n + (if cp.ctx.arith.length > 0 then 1 else 0) +
          (if cp.ctx.lin.length > 0 then 3 else 0)) = .ok quo ∧
        idx pf.evals (n + (if cp.ctx.arith.length > 0 then 1 else 0) +
          (if cp.ctx.lin.length > 0 then 3 else 0) + 1) = .ok lo ∧
        idx pf.evals (n + (if cp.ctx.arith.length > 0 then 1 else 0) +
          (if cp.ctx.lin.length > 0 then 3 else 0) + 2) = .ok hi ∧
        s = some m ∧ pf.sumMaskSum = some t ∧
        sumCheckV cp.ctx E.pcs.rank (E.setBytes ch.sb) m (E.setBytes ch.x)
          (expU64 (E.setBytes ch.x) cp.ctx.rank - 1) t quo lo hi pf.evals pwEvals = .ok true) := by
  have nn : ∀ {α : Type} {o : Option α} {a : α}, nonNil o = .ok a → o = some a := by
    intro α o a h
    cases o with
    | none => cases h
    | some b => cases h; rfl
  unfold verifyWith at h
  split at h
  · cases h
  obtain ⟨a, h1, h⟩ := bind_ok_inv h
  cases a with
  | none => cases h
  | some pw =>
  simp only at h
  obtain ⟨pwEcd, h2, h⟩ := bind_ok_inv h
  obtain ⟨c', h3, h⟩ := bind_ok_inv h
  cases c' with
  | none => cases h
  | some c' =>
  obtain ⟨ch0, l, s, n⟩ := c'
  simp only at h
  obtain ⟨b, h4, h⟩ := bind_ok_inv h
  cases b with
  | false => simp at h
  | true =>
  simp only [Bool.not_true, Bool.false_eq_true, if_false] at h
  unfold checksV at h
  obtain ⟨pwEvals, h5, h⟩ := bind_ok_inv h
  obtain ⟨⟨a1, a2⟩, h6, h⟩ := bind_ok_inv h
  cases a1 with
  | false => simp at h
  | true =>
  simp only [Bool.not_true, Bool.false_eq_true, if_false] at h
  obtain ⟨⟨l1, l2⟩, h7, h⟩ := bind_ok_inv h
  cases l1 with
  | false => simp at h
  | true =>
  simp only [Bool.not_true, Bool.false_eq_true, if_false] at h
  have hA : a2 = n + (if cp.ctx.arith.length > 0 then 1 else 0) ∧ (cp.ctx.arith.length > 0 →
      ∃ quo, idx pf.evals n = .ok quo ∧
        arithCheckV cp.ctx (E.setBytes ch.ab) (expU64 (E.setBytes ch.x) cp.ctx.rank - 1) quo
          pf.evals pwEvals = .ok true) := by
    unfold arithStepV at h6
    by_cases hn : cp.ctx.arith.length > 0
    · rw [if_pos hn] at h6 ⊢
      obtain ⟨quo, e1, h6⟩ := bind_ok_inv h6
      obtain ⟨ok, e2, h6⟩ := bind_ok_inv h6
      cases h6
      exact ⟨rfl, fun _ => ⟨quo, e1, e2⟩⟩
    · rw [if_neg hn] at h6 ⊢
      cases h6
      exact ⟨rfl, fun h => absurd h hn⟩
  obtain ⟨rfl, hA⟩ := hA
  have hL : l2 = n + (if cp.ctx.arith.length > 0 then 1 else 0) + (if cp.ctx.lin.length > 0 then 3 else 0) ∧
      (cp.ctx.lin.length > 0 → ∃ quo lo hi m t,
        idx pf.evals (n + (if cp.ctx.arith.length > 0 then 1 else 0)) = .ok quo ∧
        idx pf.evals (n + (if cp.ctx.arith.length > 0 then 1 else 0) + 1) = .ok lo ∧
        idx pf.evals (n + (if cp.ctx.arith.length > 0 then 1 else 0) + 2) = .ok hi ∧
        l = some m ∧ pf.linMaskSum = some t ∧
        linCheckV cp E.users (projMatrix E.xof ch.proj cp.ctx.rank) E.pcs.rank
          (E.setBytes ch.lb) (E.setBytes ch.lc) m (E.setBytes ch.x)
          (expU64 (E.setBytes ch.x) cp.ctx.rank - 1) t quo lo hi pf.evals = .ok true) := by
    unfold linStepV at h7
    by_cases hn : cp.ctx.lin.length > 0
    · rw [if_pos hn] at h7 ⊢
      obtain ⟨quo, e1, h7⟩ := bind_ok_inv h7
      obtain ⟨lo, e2, h7⟩ := bind_ok_inv h7
      obtain ⟨hi, e3, h7⟩ := bind_ok_inv h7
      obtain ⟨m, e4, h7⟩ := bind_ok_inv h7
      obtain ⟨t, e5, h7⟩ := bind_ok_inv h7
      obtain ⟨ok, e6, h7⟩ := bind_ok_inv h7
      cases h7
      exact ⟨rfl, fun _ => ⟨quo, lo, hi, m, t, e1, e2, e3, nn e4, nn e5, e6⟩⟩
    · rw [if_neg hn] at h7 ⊢
      cases h7
      exact ⟨rfl, fun h => absurd h hn⟩
  obtain ⟨rfl, hL⟩ := hL
  refine ⟨pw, pwEcd, ch0, l, s, n, pwEvals, h1, h2, h3, h4, h5, hA, hL, ?_⟩
  intro hn
  unfold sumStepV at h
  rw [if_pos hn] at h
  obtain ⟨quo, e1, h⟩ := bind_ok_inv h
  obtain ⟨lo, e2, h⟩ := bind_ok_inv h
  obtain ⟨hi, e3, h⟩ := bind_ok_inv h
  obtain ⟨m, e4, h⟩ := bind_ok_inv h
  obtain ⟨t, e5, h⟩ := bind_ok_inv h
  exact ⟨quo, lo, hi, m, t, e1, e2, e3, nn e4, nn e5, h⟩

/-- The values of polynomials. -/
def valsAt (f : List (List (ZMod p))) (x : ZMod p) : List (ZMod p) := f.map (fun v => evalAt v.length v x)

/-- The checks at the point `x`, for committed polynomials `f`. -/
def PassAll (cp : Compilation (ZMod p)) (users : Nat → LinearChecker (ZMod p)) (jrank : Nat)
    (pw : List (List (ZMod p))) (M : List (List Bool)) (f : List (List (ZMod p)))
    (ls ss ab lb lc sb x : ZMod p) : Prop :=
  let e := fun i => (valsAt f x).getD i 0
  let a := nextOf cp.ctx
  let l := a + (if cp.ctx.arith.length > 0 then 1 else 0)
  let s := l + (if cp.ctx.lin.length > 0 then 3 else 0)
  ∃ pwEcd pwEvals, pw.mapM (fun v => cp.ecd.encode v) = .ok pwEcd ∧
    pwEcd.mapM (fun e => e.evaluate x) = .ok pwEvals ∧
    (cp.ctx.arith ≠ [] → arithCheckV cp.ctx ab (expU64 x cp.ctx.rank - 1) (e a) (valsAt f x) pwEvals =
      .ok true) ∧
    (cp.ctx.lin ≠ [] → linCheckV cp users M jrank lb lc (e cp.ctx.wCnt) x (expU64 x cp.ctx.rank - 1) ls
      (e l) (e (l + 1)) (e (l + 2)) (valsAt f x) = .ok true) ∧
    (cp.ctx.sums ≠ [] → sumCheckV cp.ctx jrank sb (e (cp.ctx.wCnt + (if cp.ctx.lin.length > 0 then 1 else 0)))
      x (expU64 x cp.ctx.rank - 1) ss (e s) (e (s + 1)) (e (s + 2)) (valsAt f x) pwEvals = .ok true)

/-- An accepting run passes the checks with the values of the committed polynomials. -/
theorem verifyWith_passAll {N : Nat} (hi : CtxInv2 N cp.ctx) {poly : E.pcs.Com → List (ZMod p)}
    (hfix : E.pcs.Fixes cp.ctx.batch poly) {two : List TwoEntry} {c : Circ (ZMod p)}
    {pf : BProof (ZMod p) E.pcs} {ch : Challenges} (h : verifyWith E cp two c pf ch = .ok true) :
    ∃ pw, assignV cp two c.val = .ok (some pw) ∧
      pf.witness.length = cp.ctx.batch ∧ (∀ v ∈ pf.witness.map poly, v.length ≤ E.pcs.rank) ∧
      PassAll cp E.users E.pcs.rank pw (projMatrix E.xof ch.proj cp.ctx.rank)
        (pf.witness.map poly) (pf.linMaskSum.getD 0) (pf.sumMaskSum.getD 0)
        (E.setBytes ch.ab) (E.setBytes ch.lb)
        (E.setBytes ch.lc) (E.setBytes ch.sb)
        (E.setBytes ch.x) := by
  obtain ⟨pw, pwEcd, ch0, l, s, n, pwEvals, h1, h2, h3, h4, h5, hA, hL, hS⟩ := verifyWith_true_inv h
  obtain ⟨f1, f2, f3⟩ := hfix _ _ _ _ h4
  have hel : pf.evals.length = cp.ctx.batch := by rw [f3, List.length_map, f1]
  have hb := batch_eq cp.ctx
  have hch := challengesV_eq pf hi.lt (E := E) (cp := cp) ⟨by omega, by omega,
    fun h => by obtain ⟨_, _, _, _, t, _, _, _, _, ht, _⟩ := hL h; exact ⟨t, ht⟩,
    fun h => by obtain ⟨_, _, _, _, t, _, _, _, _, ht, _⟩ := hS h; exact ⟨t, ht⟩⟩
  rw [h3] at hch
  simp only [Except.ok.injEq, Option.some.injEq, Prod.mk.injEq] at hch
  obtain ⟨rfl, rfl, rfl, rfl⟩ := hch
  have hev : pf.evals = valsAt (pf.witness.map poly) (E.setBytes ch.x) := by
    rw [f3, valsAt, List.map_map]
    apply List.map_congr_left
    intro c _
    simp only [Function.comp]
    rw [listPoly_eval]
  have hid : ∀ {i : Nat} {a : ZMod p}, idx pf.evals i = .ok a → pf.evals.getD i 0 = a := by
    intro i a h
    by_cases hi : i < pf.evals.length
    · rw [idx_ok hi] at h
      rw [← getD_eq hi]
      exact Except.ok.inj h
    · unfold idx at h
      rw [List.getElem?_eq_none (by omega)] at h
      cases h
  refine ⟨pw, h1, f1, ?_, ?_⟩
  · intro v hv
    obtain ⟨c, hc, rfl⟩ := List.mem_map.1 hv
    exact f2 c hc
  · unfold PassAll
    simp only
    rw [← hev]
    refine ⟨pwEcd, pwEvals, h2, h5, ?_, ?_, ?_⟩
    · intro hne
      obtain ⟨quo, e1, e2⟩ := hA (length_pos_ne.2 hne)
      rw [hid e1]
      exact e2
    · intro hne
      have hlp := length_pos_ne.2 hne
      obtain ⟨quo, lo, hi, m, t, e1, e2, e3, e4, e5, e6⟩ := hL hlp
      rw [hid e1, hid e2, hid e3, e5]
      rw [if_pos hlp] at e4
      cases e4
      exact e6
    · intro hne
      have hlp := length_pos_ne.2 hne
      obtain ⟨quo, lo, hi, m, t, e1, e2, e3, e4, e5, e6⟩ := hS hlp
      rw [hid e1, hid e2, hid e3, e5]
      rw [if_pos hlp] at e4
      cases e4
      exact e6

theorem valsAt_getD (f : List (List (ZMod p))) (x : ZMod p) (i : Nat) :
    (valsAt f x).getD i 0 = evalAt (f.getD i []).length (f.getD i []) x := by
  unfold valsAt
  rw [List.getD_eq_getElem?_getD, List.getElem?_map, List.getD_eq_getElem?_getD]
  cases f[i]? <;> simp [evalAt]

omit [Fact p.Prime] in
theorem valsAt_evalsOf (f : List (List (ZMod p))) (n : Nat) (x : ZMod p) :
    EvalsOf (f.take n) x (valsAt f x) := by
  intro i v hv
  have : f[i]? = some v := by
    rw [List.getElem?_take] at hv
    split at hv
    · exact hv
    · cases hv
  unfold valsAt
  rw [List.getElem?_map, this]
  rfl

variable {K : Nat}

/-- All linear constraints hold for whatever the polynomials encode. -/
def LinEnf (K : Nat) (cp : Compilation (ZMod p)) (users : Nat → LinearChecker (ZMod p))
    (M : List (List Bool)) (w : List (List (ZMod p))) : Prop :=
  ∀ sw : List (List (ZMod p)), sw.length = cp.ctx.wCnt → (∀ v ∈ sw, v.length = 2 ^ K) →
    (∀ (i : Nat) (v u : List (ZMod p)), sw[i]? = some v → w[i]? = some u → Encodes cp v u) →
    ∀ e ∈ cp.ctx.lin, ∀ x ∈ e.2, ∃ L, resolve users M e.1 = .ok L ∧
      L.transformTo (List.replicate (2 ^ K) 0) (sw.getD x.2 []) = .ok (sw.getD x.1 [])

theorem linBad {ty pw0 w0 : Nat} {ops : List (CtxOp (ZMod p))} (hK : 3 ≤ K)
    (hc : compile (2 ^ K) ty pw0 w0 ops = .ok cp) (hv : ∀ op ∈ ops, op.Valid pw0 w0)
    (users : Nat → LinearChecker (ZMod p)) (jrank : Nat) (hj : 2 ^ K - 1 ≤ jrank)
    (D : Nat) (hD1 : 2 * jrank - 2 ^ K ≤ D) (hD2 : 2 ^ K + jrank - 1 ≤ D)
    (M : List (List Bool)) (w : List (List (ZMod p))) :
    ∃ badC : Finset (ZMod p), badC.card ≤ 2 ^ K - 1 ∧
      ∀ lc mask maskSum, ∃ badL : Finset (ZMod p), badL.card ≤ linCount cp ∧
      (LinOK (2 ^ K) users M cp.ctx.lin → w.length = cp.ctx.wCnt → (∀ v ∈ w, v.length ≤ jrank) →
        lc ∉ badC → mask.length ≤ jrank → ∀ b ∉ badL,
        ∀ quo remLo remHi : List (ZMod p), quo.length ≤ jrank → remLo.length ≤ jrank →
          remHi.length ≤ jrank → ∀ S : Finset (ZMod p),
          (∀ y ∈ S, ∃ evals, EvalsOf w y evals ∧
            linCheckV cp users M jrank b lc (evalAt mask.length mask y) y
              (expU64 y cp.ctx.rank - 1) maskSum (evalAt quo.length quo y)
              (evalAt remLo.length remLo y) (evalAt remHi.length remHi y) evals = .ok true) →
          D < S.card → LinEnf K cp users M w) := by
  by_cases hlin : LinOK (2 ^ K) users M cp.ctx.lin
  swap
  · exact ⟨∅, by simp, fun _ _ _ => ⟨∅, by simp, fun h => absurd h hlin⟩⟩
  by_cases hwl : w.length = cp.ctx.wCnt
  swap
  · exact ⟨∅, by simp, fun _ _ _ => ⟨∅, by simp, fun _ h => absurd h hwl⟩⟩
  by_cases hwr : ∀ v ∈ w, v.length ≤ jrank
  swap
  · exact ⟨∅, by simp, fun _ _ _ => ⟨∅, by simp, fun _ _ h => absurd h hwr⟩⟩
  by_cases hh : LinEnf K cp users M w
  · exact ⟨∅, by simp, fun _ _ _ => ⟨∅, by simp, fun _ _ _ _ _ _ _ _ _ _ _ _ _ _ _ _ => hh⟩⟩
  unfold LinEnf at hh
  push Not at hh
  obtain ⟨sw, s1, s2, s3, e, he, x, hx, s4⟩ := hh
  obtain ⟨badC, c1, c2⟩ := C38_linSound hK hc hv users M hlin jrank hj sw w s1 hwl s2 hwr s3 e he x hx s4
  refine ⟨badC, c1, fun lc mask maskSum => ?_⟩
  by_cases hlc : lc ∈ badC
  · exact ⟨∅, by simp, fun _ _ _ h => absurd hlc h⟩
  by_cases hm : mask.length ≤ jrank
  swap
  · exact ⟨∅, by simp, fun _ _ _ _ h => absurd h hm⟩
  obtain ⟨badB, b1, b2⟩ := c2 lc hlc mask maskSum hm
  refine ⟨badB, b1, fun _ _ _ _ _ b hb quo lo hi hq hl hh S hS hcard => ?_⟩
  have := b2 b hb quo lo hi hq hl hh S hS
  have h3 : max (2 * jrank - 2 ^ K) (2 ^ K + jrank - 1) ≤ D := max_le hD1 hD2
  omega

/-- The sum of all sumcheck constraints over all rows is zero, for whatever the polynomials encode. -/
def SumEnf (K : Nat) (cp : Compilation (ZMod p)) (pw w : List (List (ZMod p))) : Prop :=
  ∀ sw : List (List (ZMod p)), sw.length = cp.ctx.wCnt → (∀ v ∈ sw, v.length = 2 ^ K) →
    (∀ (i : Nat) (v u : List (ZMod p)), sw[i]? = some v → w[i]? = some u → Encodes cp v u) →
    ∑ i ∈ range (2 ^ K), (cp.ctx.sums.map (fun c => c.onRow pw sw i)).sum = 0

theorem sumBad {ty pw0 w0 : Nat} {ops : List (CtxOp (ZMod p))} (hK : 3 ≤ K)
    (hc : compile (2 ^ K) ty pw0 w0 ops = .ok cp) (hv : ∀ op ∈ ops, op.Valid pw0 w0)
    (hlt : 2 ^ K < max cp.ctx.arithCheckMaxRank cp.ctx.sumCheckMaxRank)
    (jrank : Nat) (hj : 2 ^ K - 1 ≤ jrank)
    (D : Nat) (hD : ∀ c ∈ cp.ctx.sums, c.checkDeg (2 ^ K) jrank ≤ D)
    (hD1 : 2 * jrank - 2 ^ K ≤ D) (hD2 : 2 ^ K + jrank - 1 ≤ D)
    (pw w : List (List (ZMod p))) (mask : List (ZMod p)) (maskSum : ZMod p) :
    ∃ badS : Finset (ZMod p), (badS.card ≤ 2 ∧ (cp.ctx.sums = [] → badS = ∅)) ∧ (pw.length = cp.ctx.pwCnt → (∀ v ∈ pw, v.length = 2 ^ K) →
      w.length = cp.ctx.wCnt → (∀ v ∈ w, v.length ≤ jrank) → mask.length ≤ jrank → ∀ b ∉ badS,
      ∀ pwEcd, pw.mapM (fun v => cp.ecd.encode v) = .ok pwEcd →
      ∀ quo remLo remHi : List (ZMod p), quo.length ≤ jrank → remLo.length ≤ jrank →
        remHi.length ≤ jrank → ∀ S : Finset (ZMod p),
        (∀ y ∈ S, ∃ evals pwEvals, EvalsOf w y evals ∧
          pwEcd.mapM (fun e => e.evaluate y) = .ok pwEvals ∧
          sumCheckV cp.ctx jrank b (evalAt mask.length mask y) y
            (expU64 y cp.ctx.rank - 1) maskSum (evalAt quo.length quo y)
            (evalAt remLo.length remLo y) (evalAt remHi.length remHi y) evals pwEvals = .ok true) →
        D < S.card → SumEnf K cp pw w) := by
  by_cases hpl : pw.length = cp.ctx.pwCnt
  swap
  · exact ⟨∅, ⟨by simp, fun _ => rfl⟩, fun h => absurd h hpl⟩
  by_cases hpw : ∀ v ∈ pw, v.length = 2 ^ K
  swap
  · exact ⟨∅, ⟨by simp, fun _ => rfl⟩, fun _ h => absurd h hpw⟩
  by_cases hwl : w.length = cp.ctx.wCnt
  swap
  · exact ⟨∅, ⟨by simp, fun _ => rfl⟩, fun _ _ h => absurd h hwl⟩
  by_cases hwr : ∀ v ∈ w, v.length ≤ jrank
  swap
  · exact ⟨∅, ⟨by simp, fun _ => rfl⟩, fun _ _ _ h => absurd h hwr⟩
  by_cases hm : mask.length ≤ jrank
  swap
  · exact ⟨∅, ⟨by simp, fun _ => rfl⟩, fun _ _ _ _ h => absurd h hm⟩
  by_cases hh : SumEnf K cp pw w
  · exact ⟨∅, ⟨by simp, fun _ => rfl⟩, fun _ _ _ _ _ _ _ _ _ _ _ _ _ _ _ _ _ _ => hh⟩
  unfold SumEnf at hh
  push Not at hh
  obtain ⟨sw, s1, s2, s3, s4⟩ := hh
  by_cases hpe : ∃ pwEcd, pw.mapM (fun v => cp.ecd.encode v) = .ok pwEcd
  swap
  · exact ⟨∅, ⟨by simp, fun _ => rfl⟩, fun _ _ _ _ _ _ _ pwEcd h => absurd ⟨pwEcd, h⟩ hpe⟩
  obtain ⟨pwEcd, hpe⟩ := hpe
  obtain ⟨badS, c1, c2⟩ := C40_partial hK hc hv hlt jrank hj pw sw w pwEcd hpl s1 hwl hpw s2 hwr hpe s3 s4
    mask maskSum hm D hD hD1 hD2
  refine ⟨badS, ⟨c1, fun h => absurd (by rw [h]; simp) s4⟩, fun _ _ _ _ _ b hb pwEcd' he quo lo hi hq hl hh S hS hcard => ?_⟩
  rw [hpe] at he
  cases he
  have := c2 b hb quo lo hi hq hl hh S hS
  omega

open Classical in
/-- The points at which the checks pass, if there are at most `D` of them. -/
noncomputable def badPoints (cp : Compilation (ZMod p)) (users : Nat → LinearChecker (ZMod p)) (jrank D : Nat)
    (pw : List (List (ZMod p))) (M : List (List Bool)) (f : List (List (ZMod p)))
    (ls ss ab lb lc sb : ZMod p) : Finset (ZMod p) :=
  let S := univ.filter (fun x => PassAll cp users jrank pw M f ls ss ab lb lc sb x)
  if S.card ≤ D then S else ∅

theorem badPoints_card (cp : Compilation (ZMod p)) (users : Nat → LinearChecker (ZMod p)) (jrank D : Nat)
    (pw : List (List (ZMod p))) (M : List (List Bool)) (f : List (List (ZMod p)))
    (ls ss ab lb lc sb : ZMod p) : (badPoints cp users jrank D pw M f ls ss ab lb lc sb).card ≤ D := by
  unfold badPoints
  simp only
  split
  · assumption
  · simp

theorem many_points {cp : Compilation (ZMod p)} {users : Nat → LinearChecker (ZMod p)} {jrank D : Nat}
    {pw : List (List (ZMod p))} {M : List (List Bool)} {f : List (List (ZMod p))}
    {ls ss ab lb lc sb x : ZMod p} (h : PassAll cp users jrank pw M f ls ss ab lb lc sb x)
    (hx : x ∉ badPoints cp users jrank D pw M f ls ss ab lb lc sb) :
    ∃ S : Finset (ZMod p), D < S.card ∧ ∀ y ∈ S, PassAll cp users jrank pw M f ls ss ab lb lc sb y := by
  classical
  by_contra hno
  push Not at hno
  apply hx
  unfold badPoints
  simp only
  rw [if_pos]
  · rw [mem_filter]; exact ⟨mem_univ _, h⟩
  · by_contra hgt
    push Not at hgt
    obtain ⟨y, h1, h2⟩ := hno _ hgt
    rw [mem_filter] at h1
    exact h2 h1.2

/-- The theorem for given challenges, see `C89_sound`. -/
theorem sound_core {ty pw0 w0 : Nat} {ops : List (CtxOp (ZMod p))} (hK : 3 ≤ K)
    (hc : compile (2 ^ K) ty pw0 w0 ops = .ok cp) (hv : ∀ op ∈ ops, op.Valid pw0 w0)
    (hlt : 2 ^ K < max cp.ctx.arithCheckMaxRank cp.ctx.sumCheckMaxRank)
    (hlin : ∀ seed, LinOK (2 ^ K) E.users (projMatrix E.xof seed (2 ^ K)) cp.ctx.lin)
    (hj : 2 ^ K - 1 ≤ E.pcs.rank) (poly : E.pcs.Com → List (ZMod p))
    (hfix : E.pcs.Fixes cp.ctx.batch poly) (D : Nat)
    (hDa : ∀ c ∈ cp.ctx.arith, c.checkDeg (2 ^ K) E.pcs.rank ≤ D)
    (hDs : ∀ c ∈ cp.ctx.sums, c.checkDeg (2 ^ K) E.pcs.rank ≤ D)
    (hD1 : 2 * E.pcs.rank - 2 ^ K ≤ D) (hD2 : 2 ^ K + E.pcs.rank ≤ D) :
    ∃ (badC : List (List Bool) → List (List (ZMod p)) → Finset (ZMod p))
      (badL : List (List Bool) → List (List (ZMod p)) → ZMod p → List (ZMod p) → ZMod p → Finset (ZMod p))
      (badS : List (List (ZMod p)) → List (List (ZMod p)) → List (ZMod p) → ZMod p → Finset (ZMod p))
      (badX : List (List (ZMod p)) → List (List Bool) → List (List (ZMod p)) → ZMod p → ZMod p →
        ZMod p → ZMod p → ZMod p → ZMod p → Finset (ZMod p)),
      (∀ M w, (badC M w).card ≤ 2 ^ K - 1) ∧ (∀ M w lc m s, (badL M w lc m s).card ≤ linCount cp) ∧
      (∀ pw w m s, (badS pw w m s).card ≤ 2 ∧ (cp.ctx.sums = [] → badS pw w m s = ∅)) ∧
      (∀ pw M f ls ss ab lb lc sb, (badX pw M f ls ss ab lb lc sb).card ≤ D) ∧
      ∀ (two : List TwoEntry) (c : Circ (ZMod p)) (π : BProof (ZMod p) E.pcs) (ch : Challenges),
        verifyWith E cp two c π ch = .ok true →
        ∃ pw, assignV cp two c.val = .ok (some pw) ∧
          let f := π.witness.map poly
          let w := f.take cp.ctx.wCnt
          let M := projMatrix E.xof ch.proj (2 ^ K)
          let ls := π.linMaskSum.getD 0
          let ss := π.sumMaskSum.getD 0
          E.setBytes ch.ab = 0 ∨ E.setBytes ch.lc ∈ badC M w ∨
          E.setBytes ch.lb ∈ badL M w (E.setBytes ch.lc) (f.getD cp.ctx.wCnt []) ls ∨
          E.setBytes ch.sb ∈ badS pw w
            (f.getD (cp.ctx.wCnt + (if cp.ctx.lin.length > 0 then 1 else 0)) []) ss ∨
          E.setBytes ch.x ∈ badX pw M f ls ss (E.setBytes ch.ab) (E.setBytes ch.lb) (E.setBytes ch.lc)
            (E.setBytes ch.sb) ∨
          ∃ sw : List (List (ZMod p)), sw.length = cp.ctx.wCnt ∧ (∀ v ∈ sw, v.length = 2 ^ K) ∧
            (∀ (i : Nat) (v u : List (ZMod p)), sw[i]? = some v → w[i]? = some u → Encodes cp v u) ∧
            Enforced cp.ctx E.users M pw sw := by
  choose badC hC1 badL hL1 hL2 using linBad hK hc hv E.users E.pcs.rank hj D hD1 (by omega)
  choose badS hS1 hS2 using sumBad hK hc hv hlt E.pcs.rank hj D hDs hD1 (by omega)
  refine ⟨badC, badL, badS, badPoints cp E.users E.pcs.rank D, hC1, hL1, hS1, badPoints_card _ _ _ _, ?_⟩
  intro two c π ch hver
  have hi : CtxInv2 (2 ^ K) cp.ctx := CtxInv2.define ops (CtxInv2.new _ _ _ _) (compile_inv hc).1
  obtain ⟨Ke, g, ge, h⟩ := compile_good hK hc hlt
  have href := compile_refs hc hv
  obtain ⟨pw, h1, h3, h4, h5⟩ := verifyWith_passAll hi hfix hver
  have hpw := assignV_shape h1
  rw [h.rank] at hpw h5
  refine ⟨pw, h1, ?_⟩
  simp only
  set f := π.witness.map poly with hf
  set w := f.take cp.ctx.wCnt with hw
  set M := projMatrix E.xof ch.proj (2 ^ K) with hM
  have hfl : f.length = cp.ctx.batch := by rw [hf, List.length_map, h3]
  have hb := batch_eq cp.ctx
  have hnx : nextOf cp.ctx = cp.ctx.wCnt + (if cp.ctx.lin.length > 0 then 1 else 0) +
    (if cp.ctx.sums.length > 0 then 1 else 0) := rfl
  have hwl : w.length = cp.ctx.wCnt := by rw [hw, List.length_take]; omega
  have hwr : ∀ v ∈ w, v.length ≤ E.pcs.rank := fun v hv => h4 v (List.mem_of_mem_take hv)
  have hgd : ∀ i, (f.getD i []).length ≤ E.pcs.rank := by
    intro i
    rw [List.getD_eq_getElem?_getD]
    cases hi : f[i]? with
    | none => simp
    | some v => exact h4 v (List.mem_of_getElem? hi)
  by_cases hab : E.setBytes ch.ab = 0
  · exact .inl hab
  by_cases hlc : E.setBytes ch.lc ∈ badC M w
  · exact .inr (.inl hlc)
  by_cases hlb : E.setBytes ch.lb ∈ badL M w (E.setBytes ch.lc) (f.getD cp.ctx.wCnt []) (π.linMaskSum.getD 0)
  · exact .inr (.inr (.inl hlb))
  by_cases hsb : E.setBytes ch.sb ∈ badS pw w
      (f.getD (cp.ctx.wCnt + (if cp.ctx.lin.length > 0 then 1 else 0)) []) (π.sumMaskSum.getD 0)
  · exact .inr (.inr (.inr (.inl hsb)))
  by_cases hx : E.setBytes ch.x ∈ badPoints cp E.users E.pcs.rank D pw M f (π.linMaskSum.getD 0)
      (π.sumMaskSum.getD 0) (E.setBytes ch.ab) (E.setBytes ch.lb) (E.setBytes ch.lc) (E.setBytes ch.sb)
  · exact .inr (.inr (.inr (.inr (.inl hx))))
  refine .inr (.inr (.inr (.inr (.inr ?_))))
  obtain ⟨S, hcard, hpass⟩ := many_points h5 hx
  -- the encoded witness
  obtain ⟨sw, s1, s2, s3⟩ : ∃ sw : List (List (ZMod p)), sw.length = cp.ctx.wCnt ∧
      (∀ v ∈ sw, v.length = 2 ^ K) ∧
      (∀ (i : Nat) (v u : List (ZMod p)), sw[i]? = some v → w[i]? = some u → Encodes cp v u) := by
    choose dec d1 d2 using fun u => encodes_exists h u
    refine ⟨w.map dec, by rw [List.length_map, hwl], ?_, ?_⟩
    · intro v hv
      obtain ⟨u, -, rfl⟩ := List.mem_map.1 hv
      exact d1 u
    · intro i v u hv hu
      rw [List.getElem?_map, hu] at hv
      cases hv
      exact d2 u
  refine ⟨sw, s1, s2, s3, ?_, ?_, ?_⟩
  · -- arithmetic
    rw [h.rank]
    intro i hi'
    by_cases hne : cp.ctx.arith = []
    · rw [hne]; rfl
    obtain ⟨pps, pwNTT, p1, -, p3, -, p5⟩ := encodePub_spec h pw hpw.2
    have hkey := C36_partial cp pps w (f.getD (nextOf cp.ctx) []) E.pcs.rank
      (by rw [p3, hpw.1, hwl]; exact href.arith)
      (by
        rw [h.rank]
        intro i
        by_cases hi : i < pw.length
        · exact (p5 i hi).2.1
        · rw [List.getD_eq_getElem?_getD, List.getElem?_eq_none (by omega)]
          simp [listPoly]) hwr (hgd _) (E.setBytes ch.ab) hab S
      (fun c hc => by rw [h.rank]; exact lt_of_le_of_lt (hDa c hc) hcard) (by rw [h.rank]; omega) ?_
      (g ^ rev K i) ?_
    · rw [← hkey]
      congr 1
      apply List.map_congr_left
      intro c hcm
      have hr := href.arith c hcm
      refine Constraint.value_congr c _ _ _ _ _ _ (by rw [← hpw.1, ← hwl] at hr; exact hr) (fun a ha => ?_)
        (fun a ha => ?_)
      · exact ((p5 a ha).2.2.1 i hi').symm
      · have h1 : sw[a]? = some (sw.getD a []) := by
          rw [List.getD_eq_getElem?_getD, List.getElem?_eq_getElem (by omega)]; rfl
        have h2 : w[a]? = some (w.getD a []) := by
          rw [List.getD_eq_getElem?_getD, List.getElem?_eq_getElem (by omega)]; rfl
        exact ((s3 a _ _ h1 h2).eval h (s2 _ (List.mem_of_getElem? h1)) i hi').symm
    · intro x hxS
      obtain ⟨pwEcd, pwEvals, q1, q2, q3, -⟩ := hpass x hxS
      rw [p1] at q1
      cases q1
      rw [evaluate_map] at q2
      cases q2
      refine ⟨valsAt f x, valsAt_evalsOf f _ x, ?_⟩
      have := q3 hne
      simp only [valsAt_getD] at this
      exact this
    · rw [h.rank, ← pow_mul, mul_comm, pow_mul, h.ecd.prim.pow_eq_one, one_pow]
  · rw [h.rank]
    by_cases hne : cp.ctx.lin = []
    · rw [hne]; simp
    refine hL2 M w (E.setBytes ch.lc) (f.getD cp.ctx.wCnt []) (π.linMaskSum.getD 0) (hlin _) hwl hwr hlc
      (hgd _) (E.setBytes ch.lb) hlb
      (f.getD (nextOf cp.ctx + (if cp.ctx.arith.length > 0 then 1 else 0)) [])
      (f.getD (nextOf cp.ctx + (if cp.ctx.arith.length > 0 then 1 else 0) + 1) [])
      (f.getD (nextOf cp.ctx + (if cp.ctx.arith.length > 0 then 1 else 0) + 2) [])
      (hgd _) (hgd _) (hgd _) S ?_ hcard sw s1 s2 s3
    intro y hy
    obtain ⟨pwEcd, pwEvals, -, -, -, q4, -⟩ := hpass y hy
    refine ⟨valsAt f y, valsAt_evalsOf f _ y, ?_⟩
    have := q4 hne
    simp only [valsAt_getD] at this
    exact this
  · rw [h.rank]
    by_cases hne : cp.ctx.sums = []
    · rw [hne]; simp
    obtain ⟨pps, pwNTT, p1, -, p3, -, p5⟩ := encodePub_spec h pw hpw.2
    refine hS2 pw w (f.getD (cp.ctx.wCnt + (if cp.ctx.lin.length > 0 then 1 else 0)) [])
      (π.sumMaskSum.getD 0) hpw.1 hpw.2 hwl hwr (hgd _) (E.setBytes ch.sb) hsb _ p1
      (f.getD (nextOf cp.ctx + (if cp.ctx.arith.length > 0 then 1 else 0) +
        (if cp.ctx.lin.length > 0 then 3 else 0)) [])
      (f.getD (nextOf cp.ctx + (if cp.ctx.arith.length > 0 then 1 else 0) +
        (if cp.ctx.lin.length > 0 then 3 else 0) + 1) [])
      (f.getD (nextOf cp.ctx + (if cp.ctx.arith.length > 0 then 1 else 0) +
        (if cp.ctx.lin.length > 0 then 3 else 0) + 2) [])
      (hgd _) (hgd _) (hgd _) S ?_ hcard sw s1 s2 s3
    intro y hy
    obtain ⟨pwEcd, pwEvals, q1, q2, -, -, q5⟩ := hpass y hy
    rw [p1] at q1
    cases q1
    refine ⟨valsAt f y, pwEvals, valsAt_evalsOf f _ y, q2, ?_⟩
    have := q5 hne
    simp only [valsAt_getD] at this
    exact this

/-- **C89.** Soundness of the whole protocol, over a commitment scheme that fixes the value of every
polynomial (`PCS.Fixes`), up to what the checks enforce (`Enforced`).  There are sets of bad challenges,
each a function of what was sent before that challenge (for `lb` also of `lc`, which the prover cannot
influence after `lb`), such that a proof accepted by `Verify` hits one
of them or its first commitments encode a witness satisfying the enforced constraints for the public
witnesses given to `Verify`.  `lc` has at most `N - 1` bad values, `lb` at most the number of linear
constraints, `sb` at most two, `ab` one (zero), and `x` at most `D`, any bound on the degrees of the
checked identities. -/
theorem C89_sound {ty pw0 w0 : Nat} {ops : List (CtxOp (ZMod p))} (hK : 3 ≤ K)
    (hc : compile (2 ^ K) ty pw0 w0 ops = .ok cp) (hv : ∀ op ∈ ops, op.Valid pw0 w0)
    (hlt : 2 ^ K < max cp.ctx.arithCheckMaxRank cp.ctx.sumCheckMaxRank)
    (hlin : ∀ seed, LinOK (2 ^ K) E.users (projMatrix E.xof seed (2 ^ K)) cp.ctx.lin)
    (hj : 2 ^ K - 1 ≤ E.pcs.rank) (poly : E.pcs.Com → List (ZMod p))
    (hfix : E.pcs.Fixes cp.ctx.batch poly) (D : Nat)
    (hDa : ∀ c ∈ cp.ctx.arith, c.checkDeg (2 ^ K) E.pcs.rank ≤ D)
    (hDs : ∀ c ∈ cp.ctx.sums, c.checkDeg (2 ^ K) E.pcs.rank ≤ D)
    (hD1 : 2 * E.pcs.rank - 2 ^ K ≤ D) (hD2 : 2 ^ K + E.pcs.rank ≤ D) :
    ∃ (badC : List (List Bool) → List (List (ZMod p)) → Finset (ZMod p))
      (badL : List (List Bool) → List (List (ZMod p)) → ZMod p → List (ZMod p) → ZMod p → Finset (ZMod p))
      (badS : List (List (ZMod p)) → List (List (ZMod p)) → List (ZMod p) → ZMod p → Finset (ZMod p))
      (badX : List (List (ZMod p)) → List (List Bool) → List (List (ZMod p)) → ZMod p → ZMod p →
        ZMod p → ZMod p → ZMod p → ZMod p → Finset (ZMod p)),
      (∀ M w, (badC M w).card ≤ 2 ^ K - 1) ∧ (∀ M w lc m s, (badL M w lc m s).card ≤ linCount cp) ∧
      (∀ pw w m s, (badS pw w m s).card ≤ 2) ∧
      (∀ pw M f ls ss ab lb lc sb, (badX pw M f ls ss ab lb lc sb).card ≤ D) ∧
      ∀ (two : List TwoEntry) (c : Circ (ZMod p)) (π : BProof (ZMod p) E.pcs),
        verify E cp two c π = .ok true →
        ∃ pw ch l s n, assignV cp two c.val = .ok (some pw) ∧
          challengesV E cp π = .ok (some (ch, l, s, n)) ∧
          let f := π.witness.map poly
          let w := f.take cp.ctx.wCnt
          let M := projMatrix E.xof ch.proj (2 ^ K)
          let ls := π.linMaskSum.getD 0
          let ss := π.sumMaskSum.getD 0
          E.setBytes ch.ab = 0 ∨ E.setBytes ch.lc ∈ badC M w ∨
          E.setBytes ch.lb ∈ badL M w (E.setBytes ch.lc) (f.getD cp.ctx.wCnt []) ls ∨
          E.setBytes ch.sb ∈ badS pw w
            (f.getD (cp.ctx.wCnt + (if cp.ctx.lin.length > 0 then 1 else 0)) []) ss ∨
          E.setBytes ch.x ∈ badX pw M f ls ss (E.setBytes ch.ab) (E.setBytes ch.lb) (E.setBytes ch.lc)
            (E.setBytes ch.sb) ∨
          ∃ sw : List (List (ZMod p)), sw.length = cp.ctx.wCnt ∧ (∀ v ∈ sw, v.length = 2 ^ K) ∧
            (∀ (i : Nat) (v u : List (ZMod p)), sw[i]? = some v → w[i]? = some u → Encodes cp v u) ∧
            Enforced cp.ctx E.users M pw sw := by
  obtain ⟨badC, badL, badS, badX, h1, h2, h3, h4, h⟩ := sound_core hK hc hv hlt hlin hj poly hfix D hDa hDs hD1 hD2
  refine ⟨badC, badL, badS, badX, h1, h2, fun pw w m s => (h3 pw w m s).1, h4, ?_⟩
  intro two c π hver
  obtain ⟨ch, l, s, n, hch, hw⟩ := verify_verifyWith hver
  obtain ⟨pw, hpw, hr⟩ := h two c π ch hw
  exact ⟨pw, ch, l, s, n, hpw, hch, hr⟩

/-- The trivial commitment scheme whose `Verify` also checks the number of commitments and their
lengths. -/
abbrev fixPCS (p rank n : Nat) : PCS (ZMod p) where
  Com := List (ZMod p)
  Open := Unit
  Pf := Unit
  Rnd := Unit
  rank := rank
  commit v _ := if 1 ≤ v.length ∧ v.length ≤ rank then .ok (v, ()) else goPanic
  evaluate x vs _ _ _ := .ok (vs.map (fun v => evalAt v.length v x), ())
  verify x cs es _ := .ok (decide (cs.length = n ∧ (∀ c ∈ cs, c.length ≤ rank) ∧
    es = cs.map (fun v => evalAt v.length v x)))
  ser v := v.flatMap (fun a => [UInt8.ofNat (a.val / 256), UInt8.ofNat a.val])

omit [Fact p.Prime] in
theorem fixPCS_fixes (rank n : Nat) : (fixPCS p rank n).Fixes n id := by
  intro x cs ys pf h
  have h' := of_decide_eq_true (Except.ok.inj h)
  refine ⟨h'.1, h'.2.1, h'.2.2.trans ?_⟩
  apply List.map_congr_left
  intro c _
  exact (listPoly_eval _ _).symm

theorem fixPCS_correct (rank n : Nat) : (fixPCS p rank n).Correct n where
  commit := (plainPCS_correct rank n).commit
  eval := by
    intro x batch rnd r hl hc
    obtain ⟨pf, h1, h2⟩ := (plainPCS_correct rank n).eval x batch rnd r hl hc
    refine ⟨pf, h1, ?_⟩
    have h3 := of_decide_eq_true (Except.ok.inj h2)
    refine congrArg (Except.ok : Bool → Go Bool) (decide_eq_true ⟨by rw [List.length_map, hl], ?_, h3⟩)
    intro c hcm
    obtain ⟨e, he, rfl⟩ := List.mem_map.1 hcm
    obtain ⟨i, hi, rfl⟩ := List.getElem_of_mem he
    have h := hc i _ (List.getElem?_eq_getElem hi)
    change (if 1 ≤ batch[i].1.length ∧ batch[i].1.length ≤ rank then
      (Except.ok (batch[i].1, ()) : Go (List (ZMod p) × Unit)) else goPanic) = _ at h
    split at h
    · rename_i hr
      injection h with h
      have : batch[i].2.1 = batch[i].1 := congrArg Prod.fst h.symm
      rw [this]
      exact hr.2
    · cases h

/-- `C89_sound` applies to `X * Y = U`, `|X| ≤ 5`, `Σ X = 0` (`p = 193`, rank 8), with `D = 58`, and
there are accepted proofs. -/
example (hash : Bytes → Bytes) (xof : Bytes → Nat → UInt8) (marshal : ZMod 193 → Bytes)
    (setBytes : Bytes → ZMod 193) (users : Nat → LinearChecker (ZMod 193)) :
    ∃ cp, compile (p := 193) (2 ^ 3) 0 1 2 ops48 = .ok cp ∧ (∀ op ∈ ops48 (p := 193), op.Valid 1 2) ∧
      2 ^ 3 < max cp.ctx.arithCheckMaxRank cp.ctx.sumCheckMaxRank ∧
      (∀ seed, LinOK (2 ^ 3) users (projMatrix xof seed (2 ^ 3)) cp.ctx.lin) ∧
      (fixPCS 193 18 10).Fixes cp.ctx.batch id ∧
      (∀ c ∈ cp.ctx.arith, c.checkDeg (2 ^ 3) 18 ≤ 58) ∧ (∀ c ∈ cp.ctx.sums, c.checkDeg (2 ^ 3) 18 ≤ 58) ∧
      2 * 18 - 2 ^ 3 ≤ 58 ∧ 2 ^ 3 + 18 ≤ 58 ∧
      ∃ (u : List (ZMod 193)) (pf : BProof (ZMod 193) (fixPCS 193 18 10)),
        verify ⟨fixPCS 193 18 10, hash, xof, marshal, setBytes, users⟩ cp []
          ⟨0, circ48 u (List.replicate 8 0) (List.replicate 8 0)⟩ pf = .ok true := by
  obtain ⟨cp, h1, h2⟩ := case48 (fixPCS 193 18 10) (fixPCS_correct _ _) le_rfl hash xof marshal setBytes users
    ⟨fun _ => 1, fun _ => 0, fun _ => 0, fun _ => (), ()⟩ [1, 2, 3, 4, 5, 6, 7, 8] rfl
  obtain ⟨pf, -, h2⟩ := h2
  obtain ⟨cp', h1', -, -, -, -, -, -, h8, -, -, -, h12, -, h14, h15⟩ := compile48
  rw [h1] at h1'
  cases h1'
  rw [List.all_eq_true] at h15
  refine ⟨cp, h1, ?_, by rw [h8]; simp, ?_, by rw [h14]; exact fixPCS_fixes _ _, ?_, ?_, by norm_num,
    by norm_num, _, pf, h2⟩
  · intro op hop
    simp only [ops48, List.mem_cons, List.not_mem_nil, or_false] at hop
    rcases hop with rfl | rfl | rfl
    · intro t ht
      simp only [List.mem_cons, List.not_mem_nil, or_false] at ht
      rcases ht with rfl | rfl <;> simp
    · show 0 < 2; norm_num
    · intro t ht
      simp only [List.mem_cons, List.not_mem_nil, or_false] at ht
      rcases ht with rfl; simp
  · intro seed e he
    rw [h12] at he
    cases he
  · exact fun c hc => of_decide_eq_true (h15 c (List.mem_append_left _ hc))
  · exact fun c hc => of_decide_eq_true (h15 c (List.mem_append_right _ hc))

end

end Ringo
