import Verif.Props.EndToEnd
import Verif.Props.JBatchEx
import Verif.Props.Protocol2
import Mathlib.Tactic.NormNum.Prime

/-! # A circuit that meets the hypotheses of C109 -/

namespace Ringo

open Finset

/-- `X * X = U`. -/
def opsSq : List (CtxOp (ZMod 65537)) := [.arith [⟨1, none, [0, 0]⟩, ⟨-1, some 0, []⟩]]

theorem prime_65537 : Fact (Nat.Prime 65537) := ⟨by norm_num⟩

attribute [local instance] prime_65537

theorem compileSq : ∃ cp, compile (p := 65537) (2 ^ 3) 0 1 1 opsSq = .ok cp ∧
    cp.ctx.pwCnt = 1 ∧ cp.ctx.wCnt = 1 ∧ cp.ctx.infDcmp = [] ∧ cp.ctx.twoDcmp = [] ∧ cp.ctx.projWit = [] ∧
    cp.ctx.projInf = [] ∧ cp.ctx.arithCheckMaxRank = 17 ∧ cp.ctx.sums = [] ∧ cp.ctx.commitRank = 9 ∧
    cp.ctx.batch = 2 := by
  have hdef : ∃ ctx, (newContext (ZMod 65537) (2 ^ 3) 0 1 1).define opsSq = .ok ctx ∧ ctx.embRank = 32 ∧
      ctx.pwCnt = 1 ∧ ctx.wCnt = 1 ∧ ctx.infDcmp = [] ∧ ctx.twoDcmp = [] ∧ ctx.projWit = [] ∧
      ctx.projInf = [] ∧ ctx.arithCheckMaxRank = 17 ∧ ctx.sums = [] ∧ ctx.commitRank = 9 ∧
      ctx.batch = 2 := ⟨_, rfl, rfl, rfl, rfl, rfl, rfl, rfl, rfl, rfl, rfl, rfl, rfl⟩
  obtain ⟨ctx, a1, a2, a3⟩ := hdef
  obtain ⟨cp, h1, h2⟩ := compile_total (p := 65537) (N := 2 ^ 3) (ty := 0) (pw0 := 1) (w0 := 1)
    (K := 3) (Ke := 5) rfl (by norm_num) (by norm_num) a1 a2 (by norm_num) (by norm_num)
  exact ⟨cp, h1, by rw [h2]; exact a3⟩

/-- **Case for C109**: `X * X = U` over the field of order 65537 in rank 8, with the parameters of `NewParameters`
in IEEE arithmetic.  For every oracle and hash function, all randomness and every `X`, the proof is accepted. -/
theorem C109_case (fused : Bool) : ∃ (cp : Compilation (ZMod 65537)) (P : RParams) (Q Q' : List Nat),
    compile (p := 65537) (2 ^ 3) 0 1 1 opsSq = .ok cp ∧
    (ieee fused).newParameters exNear cp.ctx.commitRank cp.ctx.batch 65537 = .ok P ∧
    ∀ (jxof : List (JMsg (RQ Q 256) (RQ Q' 256) (ZMod 65537)) → Nat → List (BitVec 8)),
      (∀ ms i, (jxof ms i).length = 16) → ∃ (_ : DecidableEq (RQ Q 256)) (J : JEnv 65537 (RQ Q 256) (RQ Q' 256)),
      J.xof = jxof ∧ J.From P ∧
      ∀ (ser : List (RQ Q' 256) → Bytes) (hash : Bytes → Bytes) (xof : Bytes → Nat → UInt8)
        (marshal : ZMod 65537 → Bytes) (setBytes : Bytes → ZMod 65537) (users : Nat → LinearChecker (ZMod 65537))
        (t : Tape (ZMod 65537) (ComRand 65537)) (x : List (ZMod 65537)), x.length = 8 →
        ∃ pf : BProof (ZMod 65537) (jindoPCS J ser),
          prove ⟨jindoPCS J ser, hash, xof, marshal, setBytes, users⟩ cp t ⟨[], [], [], []⟩
            ⟨0, circ47 (x.map fun a => a * a) x⟩ = .ok (some pf) ∧
          verify ⟨jindoPCS J ser, hash, xof, marshal, setBytes, users⟩ cp []
            ⟨0, circ47 (x.map fun a => a * a) (List.replicate 8 0)⟩ pf = .ok true := by
  classical
  obtain ⟨cp, c1, c2, c3, c4, c5, c6, c7, c8, c9, c10, c11⟩ := compileSq
  obtain ⟨P, Q, Q', hP, hne, hsh, hQ, hQ38, hS, hE⟩ := two_env fused exNear_ok exNear_chain
  refine ⟨cp, P, Q, Q', c1, by rw [c10, c11]; exact hP, fun jxof hx => ?_⟩
  obtain ⟨J, hxof, hF, ⟨A⟩, ⟨A'⟩⟩ := hE jxof hx
  refine ⟨inferInstance, J, hxof, hF, ?_⟩
  intro ser hash xof marshal setBytes users t x hl
  have hqs : J.ringQ.qs = [2 ^ 38 + 1] := by
    have h1 := hF.qs
    rw [hQ] at h1
    have h2 : exNear 38 1 = some [2 ^ 38 + 1] := rfl
    rw [h2] at hQ38
    rw [← Option.some.inj h1, ← Option.some.inj hQ38]
  have hexp : P.shape.exp = 16 := by rw [hsh]
  have hgood := (C107_good (ieee_ok fused) exNear_ok (by norm_num) (by norm_num) (by norm_num) hP hne (by omega)
    (by omega) J hF).1
  obtain ⟨pf, g1, vs, opens, I, -, -, -, -, -, -, ⟨W, hW⟩, g2⟩ := C109_complete (p := 65537) (by norm_num)
    (K := 3) (ty := 0) (by norm_num) opsSq (cp := cp) (circ47 [] []) (circ47 (x.map fun a => a * a) x)
    (circ47 (x.map fun a => a * a) (List.replicate 8 0))
    (fun path s i w h => (circ47_leaf h).1) (.ptr (.cons .pub (.cons .wit .nil)))
    (fun path s i w h => by
      obtain ⟨-, h2, rfl | rfl⟩ := circ47_leaf h
      · exact ⟨h2, by simp [hl]⟩
      · exact ⟨h2, hl⟩)
    (.ptr (.cons .pub (.cons .wit .nil))) c1 (by rw [c2, c3]; norm_num) (by rw [c2, c3]; norm_num)
    (by
      intro op hop
      simp only [opsSq, List.mem_cons, List.not_mem_nil, or_false] at hop
      subst hop
      intro t ht
      simp only [List.mem_cons, List.not_mem_nil, or_false] at ht
      rcases ht with rfl | rfl <;> simp [circ47, firstWalk, firstWalks])
    List.nodup_nil (Nat.zero_le 1) List.nodup_nil (by rw [c8]; simp) (fun _ => by rw [c8]; norm_num)
    (fun h => absurd c9 h) ⟨jindoPCS J ser, hash, xof, marshal, setBytes, users⟩ (by simp [opsSq])
    (ieee_ok fused) exNear_ok (by rw [c10]; norm_num) (by rw [c11]; norm_num) (P := P) (by rw [c10, c11]; exact hP)
    hne (by omega) (by omega) J hF (by rw [hqs]; exact exNear_single (by norm_num) (by norm_num)) A A' ser
    ⟨[], [], [], []⟩ ⟨by rw [c4], by rw [c5], by rw [c6], by rw [c7]⟩ [] (by rw [c5])
    (by
      intro pw sw hA op hop
      obtain ⟨a1, a2⟩ := circ47_assigned (by norm_num) hA
      simp only [opsSq, List.mem_cons, List.not_mem_nil, or_false] at hop
      subst hop
      intro i hi
      simp only [Constraint.onRow, Constraint.value, Term.value, rowOf, List.getD_eq_getElem?_getD, a1, a2,
        List.map_cons, List.map_nil, List.prod_cons, List.prod_nil, List.sum_cons, List.sum_nil, Option.getD_some,
        List.getElem?_map]
      rw [List.getElem?_eq_getElem (by omega)]
      simp) t
  exact ⟨pf, g1, g2 W hW (two_typical hsh hS hF hgood hW)⟩

end Ringo
