import Verif.Proof.Examples2
import Verif.Props.Moduli
import Verif.Props.Protocol2

/-!
# C112: `examples/mult`

`main` ends with `true` for everything it can draw at random; the circuit means what the comments of the program
say; and the proof is nevertheless no argument for it.
-/

set_option linter.unusedSectionVars false

namespace Ringo

open Finset Polynomial

section
variable {p : Nat} [Fact p.Prime]

/-- A run with a correct commitment scheme for `batch` polynomials of rank `rank`, in which the maps of a context
are iterated over completely. -/
structure Run.Good (R : Run p) (batch rank : Nat) : Prop where
  correct : R.pcs.Correct batch
  rank : rank ≤ R.pcs.rank
  ord : ∀ ctx, GoodOrders ctx (R.ord ctx)
  two : ∀ ctx, (R.two ctx).Perm ctx.twoDcmp

theorem nilPtr_noLeaf {F : Type} : NoLeaf (.nilPtr : Val F) := by
  intro path s i w
  cases path with
  | nil => simp [get?_nil]
  | cons j r => simp [get?_nilPtr]

theorem lt_of_dvd {K : Nat} (hK : 3 ≤ K) (hd : 2 ^ (K + 3) ∣ p - 1) : 64 < p := by
  have h1 : 2 ^ 6 ≤ 2 ^ (K + 3) := Nat.pow_le_pow_right (by norm_num) (by omega)
  have h2 := Nat.le_of_dvd (by have := (Fact.out : p.Prime).two_le; omega) hd
  omega

theorem two_dvd_of {K : Nat} (hd : 2 ^ (K + 3) ∣ p - 1) : 2 * 2 ^ K ∣ p - 1 := by
  refine dvd_trans ?_ hd
  rw [← pow_succ']
  exact pow_dvd_pow 2 (by omega)

theorem odd_of_dvd {K : Nat} (hd : 2 ^ (K + 3) ∣ p - 1) : p % 2 = 1 := by
  have h1 : 2 ∣ p - 1 := dvd_trans (dvd_pow_self 2 (by omega)) hd
  have := (Fact.out : p.Prime).two_le
  omega

/-- **C112 (mult, main).**  For every rank `2^K ≥ 8`, every field with enough roots of unity, every random choice
of `X` (coefficients 0 to 5) and `Y` (64-bit integers), every hash function, all prover randomness, every order of
map iteration and every correct commitment scheme for 12 polynomials of rank `2N + 1`: the program prints `true`. -/
theorem C112_accepts {K : Nat} (hK : 3 ≤ K) (hd : 2 ^ (K + 3) ∣ p - 1) (R : Run p)
    (hR : R.Good 12 (2 * 2 ^ K + 1)) (ty : Nat) (chk : Val (ZMod p)) (hchk : NoLeaf chk) (rx ry : Nat → Nat) :
    multMain R (2 ^ K) ty chk rx ry = .ok true := by
  have hp := lt_of_dvd hK hd
  obtain ⟨ev, L, psi, h1, h2, hg, hL, hfwd, hinv⟩ := ring_setup (p := p) hK (two_dvd_of hd)
  have hx : ((List.range (2 ^ K)).map (fun i => ((rx i % 6 : Nat) : ZMod p))).length = 2 ^ K := by simp
  have hy : ((List.range (2 ^ K)).map (fun i => ((ry i : Nat) : ZMod p))).length = 2 ^ K := by simp
  obtain ⟨xn, x1, x2, x3, x4⟩ := hfwd _ hx
  obtain ⟨yn, y1, y2, -, y4⟩ := hfwd _ hy
  have hzn : (List.zipWith (· * ·) xn yn).length = 2 ^ K := by simp [x1, y1]
  obtain ⟨z, z1, z2, z3⟩ := hinv _ hzn
  obtain ⟨cp, c1, -⟩ := mult_compile (p := p) (K := K) (by omega) hd ty
  unfold multMain
  rw [h1, go_bind_ok, hg.rank]
  simp only
  rw [x2, go_bind_ok, y2, go_bind_ok, mul_ok hg _ _ x1 y1, go_bind_ok, z2, go_bind_ok, h2, go_bind_ok,
    compileMult_eq (by omega) _ _ _ hchk, c1, go_bind_ok]
  refine mult_run (odd_of_dvd hd) hK hd R hR.correct hR.rank hR.ord hR.two ty hL c1 _ _ _ _ _ y1 hx z1 x1 hzn x3 z3 ?_
  intro i hi
  rw [getD_zipWith (· * ·) _ _ (by rw [x1, y1]) i (by simp)]
  have : excess 5 (((List.range (2 ^ K)).map (fun i => ((rx i % 6 : Nat) : ZMod p))).getD i 0).valMinAbs = 0 := by
    have h5 : |((rx i % 6 : Nat) : Int)| ≤ 5 := by rw [abs_le]; omega
    rw [excess_zero, valMinAbs_of (z := ((rx i % 6 : Nat) : Int)) (B := 5) _ h5 (by omega)]
    · exact h5
    · rw [List.getD_eq_getElem?_getD, List.getElem?_eq_getElem (by simpa using hi)]
      simp only [List.getElem_map, List.getElem_range, Option.getD_some]
      exact (Int.cast_natCast _).symm
  rw [this]
  push_cast
  ring

/-- **C112 (mult, meaning of `Define`).**  The constraints that `Define` adds to the compiled circuit hold for
`YNTT = NTT(Y)`, `X`, `Z`, `XNTT`, `ZNTT` exactly if `XNTT` and `ZNTT` are the transforms of `X` and `Z`, `Z` is the
product of `X` and `Y` modulo `X^N + 1`, and the coefficients of `X` are at most 5 in absolute value. -/
theorem C112_meaning {K : Nat} (hK : 3 ≤ K) (hd : 2 ^ (K + 3) ∣ p - 1) (chk : Val (ZMod p)) (hchk : NoLeaf chk) :
    ∃ ev L ops, newCyclotomicEvaluator p (2 ^ K) = .ok ev ∧ newNTTChecker p (2 ^ K) = .ok L ∧
      (MultCircuit.read (firstWalk (MultCircuit.val ⟨chk, [], [], [], [], []⟩) ⟨0, 0⟩).1 >>= MultCircuit.define) =
        .ok ops ∧
      ∀ X Y Z XN YN ZN : List (ZMod p), X.length = 2 ^ K → Y.length = 2 ^ K → Z.length = 2 ^ K →
        ev.toNTT ⟨Y, false⟩ = .ok ⟨YN, true⟩ →
        ((∀ op ∈ ops, op.HonestFor (2 ^ K) (fun _ => L) [YN] [X, Z, XN, ZN]) ↔
          ev.toNTT ⟨X, false⟩ = .ok ⟨XN, true⟩ ∧ ev.toNTT ⟨Z, false⟩ = .ok ⟨ZN, true⟩ ∧
          (Polynomial.X ^ 2 ^ K + 1) ∣ listPoly X * listPoly Y - listPoly Z ∧
          ∀ i < 2 ^ K, |(X.getD i 0).valMinAbs| ≤ 5) := by
  have hp := lt_of_dvd hK hd
  obtain ⟨ev, L, psi, h1, h2, hg, hL, hfwd, hinv⟩ := ring_setup (p := p) hK (two_dvd_of hd)
  refine ⟨ev, L, multOps, h1, h2, ?_, ?_⟩
  · obtain ⟨chk', hw⟩ := multWalk chk hchk [] [] [] [] []
    rw [hw]
    simp only [MultCircuit.val, MultCircuit.read, go_pure, go_bind_ok, MultCircuit.define]
    obtain ⟨a0, b0, c0⟩ := idOf (p := p) (n := 0) (by norm_num) (by omega)
    obtain ⟨a1, -, c1⟩ := idOf (p := p) (n := 1) (by norm_num) (by omega)
    obtain ⟨a2, -, c2⟩ := idOf (p := p) (n := 2) (by norm_num) (by omega)
    obtain ⟨a3, -, c3⟩ := idOf (p := p) (n := 3) (by norm_num) (by omega)
    simp only [b0, a0, a1, a2, a3, go_bind_ok, c0, c1, c2, c3]
    rfl
  · intro X Y Z XN YN ZN hX hY hZ hYN
    obtain ⟨xn, x1, x2, x3, x4⟩ := hfwd X hX
    obtain ⟨yn, y1, y2, -, y4⟩ := hfwd Y hY
    obtain ⟨zn, z1, z2, z3, z4⟩ := hfwd Z hZ
    rw [y2] at hYN
    cases hYN
    have hops : (∀ op ∈ (multOps : List (CtxOp (ZMod p))), op.HonestFor (2 ^ K) (fun _ => L) [YN] [X, Z, XN, ZN]) ↔
        L.transformTo (List.replicate (2 ^ K) 0) X = .ok XN ∧ L.transformTo (List.replicate (2 ^ K) 0) Z = .ok ZN ∧
        (∀ i < 2 ^ K, YN.getD i 0 * XN.getD i 0 - ZN.getD i 0 = 0) ∧
        (∀ i < 2 ^ K, Within (X.getD i 0).valMinAbs 5) := by
      simp only [multOps, List.forall_mem_cons, List.not_mem_nil, IsEmpty.forall_iff, implies_true, and_true,
        CtxOp.HonestFor]
      refine and_congr Iff.rfl (and_congr Iff.rfl (and_congr (forall₂_congr fun i _ => ?_) ?_))
      · have : Constraint.onRow [⟨1, some 0, [2]⟩, ⟨-1, none, [3]⟩] [YN] [X, Z, XN, ZN] i =
            YN.getD i 0 * XN.getD i 0 - ZN.getD i 0 := by
          simp only [Constraint.onRow, Constraint.value, Term.value, rowOf, List.getD_eq_getElem?_getD,
            List.map_cons, List.map_nil, List.prod_cons, List.prod_nil, List.sum_cons, List.sum_nil]
          simp
          ring
        rw [this]
      · exact ⟨fun h => h.2, fun h => ⟨by norm_num, h⟩⟩
    rw [hops, x3, z3, x2, z2]
    have hw5 : ∀ z : Int, Within z 5 ↔ |z| ≤ 5 := by
      intro z
      refine ⟨fun h => h.1, fun h => ⟨h, ?_⟩⟩
      rintro ⟨k, hk1, hk2⟩
      exfalso
      have : 2 ∣ 2 ^ k := dvd_pow_self 2 (by omega)
      omega
    simp only [hw5]
    constructor
    · rintro ⟨e1, e2, e3, e4⟩
      cases e1; cases e2
      refine ⟨rfl, rfl, (hg.pts.dvd_iff _).2 fun i hi => ?_, e4⟩
      have := e3 i hi
      rw [x4 i hi, y4 i hi, z4 i hi] at this
      rw [eval_sub, eval_mul]
      linear_combination this
    · rintro ⟨e1, e2, e3, e4⟩
      cases e1; cases e2
      refine ⟨rfl, rfl, fun i hi => ?_, e4⟩
      have := (hg.pts.dvd_iff _).1 e3 i hi
      rw [eval_sub, eval_mul] at this
      rw [x4 i hi, y4 i hi, z4 i hi]
      linear_combination this

/-- **C112 (mult, no argument).**  For all `X` and `Y` whatsoever - `X` need not be small - there is a `Z` such that
the library's own prover, called as in the example, gets its proof accepted for the public input `NTT(Y)`.  If a
coefficient of `X` exceeds the declared bound, then `Z` is not even the product: both claims of the circuit fail.
(The sum of the constraints is what is enforced, see `C36_refuted`; here the excess of `X` over its bound is
cancelled by an error in the product.) -/
theorem C112_refuted {K : Nat} (hK : 3 ≤ K) (hd : 2 ^ (K + 3) ∣ p - 1) (ty : Nat) (chk : Val (ZMod p))
    (hchk : NoLeaf chk) : ∃ ev L cp, newCyclotomicEvaluator p (2 ^ K) = .ok ev ∧ newNTTChecker p (2 ^ K) = .ok L ∧
      compileMult (2 ^ K) ty ⟨chk, [], [], [], [], []⟩ = .ok cp ∧
      ∀ X Y : List (ZMod p), X.length = 2 ^ K → Y.length = 2 ^ K → ∃ Z XN YN ZN,
        ev.toNTT ⟨X, false⟩ = .ok ⟨XN, true⟩ ∧ ev.toNTT ⟨Y, false⟩ = .ok ⟨YN, true⟩ ∧
        (∀ R : Run p, R.Good 12 (2 * 2 ^ K + 1) → proveAndVerify R L cp ty
          (MultCircuit.val ⟨.nilPtr, YN, X, Z, XN, ZN⟩) (MultCircuit.val ⟨.nilPtr, YN, [], [], [], []⟩) = .ok true) ∧
        ((∃ i < 2 ^ K, 5 < |(X.getD i 0).valMinAbs|) →
          ¬ (Polynomial.X ^ 2 ^ K + 1) ∣ listPoly X * listPoly Y - listPoly Z) := by
  have hp := lt_of_dvd hK hd
  obtain ⟨ev, L, psi, h1, h2, hg, hL, hfwd, hinv⟩ := ring_setup (p := p) hK (two_dvd_of hd)
  obtain ⟨cp, c1, -⟩ := mult_compile (p := p) (K := K) (by omega) hd ty
  refine ⟨ev, L, cp, h1, h2, by rw [compileMult_eq (by omega) _ _ _ hchk]; exact c1, ?_⟩
  intro X Y hX hY
  obtain ⟨xn, x1, x2, x3, x4⟩ := hfwd X hX
  obtain ⟨yn, y1, y2, -, y4⟩ := hfwd Y hY
  set zn := (List.range (2 ^ K)).map (fun i => yn.getD i 0 * xn.getD i 0 +
    ((excess 5 (X.getD i 0).valMinAbs : Int) : ZMod p)) with hzn
  have hznl : zn.length = 2 ^ K := by simp [hzn]
  have hznv : ∀ i < 2 ^ K, zn.getD i 0 = yn.getD i 0 * xn.getD i 0 +
      ((excess 5 (X.getD i 0).valMinAbs : Int) : ZMod p) := by
    intro i hi
    rw [List.getD_eq_getElem?_getD, List.getElem?_eq_getElem (by omega)]
    simp [hzn]
  obtain ⟨z, z1, z2, z3⟩ := hinv zn hznl
  refine ⟨z, xn, yn, zn, x2, y2, fun R hR => ?_, ?_⟩
  · refine mult_run (odd_of_dvd hd) hK hd R hR.correct hR.rank hR.ord hR.two ty hL c1 _ _ _ _ _ y1 hX z1 x1 hznl x3
      z3 ?_
    intro i hi
    rw [hznv i hi]
    ring
  · rintro ⟨i, hi, h5⟩ hdv
    have := (hg.pts.dvd_iff _).1 hdv i hi
    obtain ⟨zn', w1, -, w2, w3⟩ := hfwd z z1
    rw [z3] at w2
    cases w2
    rw [eval_sub, eval_mul, ← x4 i hi, ← y4 i hi, ← w3 i hi, hznv i hi] at this
    have hz : ((excess 5 (X.getD i 0).valMinAbs : Int) : ZMod p) = 0 := by linear_combination -this
    rw [ZMod.intCast_zmod_eq_zero_iff_dvd] at hz
    have hb := ZMod.natAbs_valMinAbs_le (X.getD i 0)
    generalize (X.getD i 0).valMinAbs = v at *
    have h0 : excess 5 v ≠ 0 := by rw [Ne, excess_zero]; push_cast; omega
    have hlt : |excess 5 v| < p := by
      unfold excess
      rw [abs_lt]
      split_ifs <;> omega
    exact h0 (Int.eq_zero_of_abs_lt_dvd hz hlt)

end

/-- The field of the example: rank 2^13 and the prime 60256^8 + 1. -/
theorem mult_field : Nat.Prime multPkg.p ∧ 2 ^ (13 + 3) ∣ multPkg.p - 1 := by
  rw [mult_p]
  exact ⟨mult_prime, by norm_num⟩

/-- A run with the commitment scheme that reveals its polynomials. -/
def plainRun (p : Nat) [Fact p.Prime] (rank : Nat) (hash : Bytes → Bytes) (xof : Bytes → Nat → UInt8)
    (marshal : ZMod p → Bytes) (setBytes : Bytes → ZMod p) (enc lin sum : Nat → ZMod p) : Run p where
  pcs := plainPCS p rank
  hash := hash
  xof := xof
  marshal := marshal
  setBytes := setBytes
  tape := ⟨enc, lin, sum, fun _ => (), ()⟩
  ord := fun ctx => ⟨ctx.infDcmp, ctx.twoDcmp, ctx.projWit, ctx.projInf⟩
  two := fun ctx => ctx.twoDcmp

theorem plainRun_good (p : Nat) [Fact p.Prime] (rank n : Nat) (hash : Bytes → Bytes) (xof : Bytes → Nat → UInt8)
    (marshal : ZMod p → Bytes) (setBytes : Bytes → ZMod p) (enc lin sum : Nat → ZMod p) :
    (plainRun p rank hash xof marshal setBytes enc lin sum).Good n rank :=
  ⟨plainPCS_correct rank n, le_rfl, fun _ => ⟨.refl _, .refl _, .refl _, .refl _⟩, fun _ => .refl _⟩

/-- **Case for C112.**  The program at its own rank and modulus, for every hash function and all randomness. -/
theorem C112_case : ∃ _ : Fact multPkg.p.Prime, ∀ hash xof marshal setBytes enc lin sum rx ry,
    multMain (plainRun multPkg.p (2 * 2 ^ 13 + 1) hash xof marshal setBytes enc lin sum) (2 ^ 13) 0 (.ptr .other)
      rx ry = .ok true := by
  have : Fact multPkg.p.Prime := ⟨mult_field.1⟩
  refine ⟨this, fun hash xof marshal setBytes enc lin sum rx ry => ?_⟩
  refine C112_accepts (by norm_num) mult_field.2 _ (plainRun_good _ _ _ _ _ _ _ _ _ _) 0 _ ?_ rx ry
  rintro path s i w
  rcases path with _ | ⟨_ | j, _ | ⟨k, r⟩⟩ <;> simp [get?_nil, get?_ptr, get?_other, get?_ptr_succ]

end Ringo
