import Verif.Proof.Examples3
import Verif.Proof.Negacyclic
import Verif.Props.Examples

/-!
# C113: `examples/bfv`

The program prints `true` for every encryption with a short error; what the circuit means; and what it leaves open.
-/

set_option linter.unusedSectionVars false

namespace Ringo

open Finset Polynomial

section
variable {p : Nat} [Fact p.Prime]

theorem transform_inj {K : Nat} {M : (ZMod p)[X]} {pt : Nat → ZMod p} {ev : Evaluator (ZMod p)}
    (hg : GoodEv K M pt ev) {v w : List (ZMod p)} (hv : v.length = 2 ^ K) (hw : w.length = 2 ^ K)
    (h : ∀ i < 2 ^ K, (listPoly v).eval (pt i) = (listPoly w).eval (pt i)) : v = w := by
  refine listPoly_mk_inj hg.pts.monic (n := 2 ^ K) (natDegree_eq_of_degree_eq_some hg.pts.deg) hv hw ?_
  rw [AdjoinRoot.mk_eq_mk, hg.pts.dvd_iff]
  intro i hi
  rw [eval_sub, h i hi, sub_self]

/-- `ModSwitch` over the integers. -/
theorem modSwitch_ints {N : Nat} {Q : Int} (hQ : 0 < Q) (cs : List Int) (hc : cs.length = N) :
    ∃ n r : List Int, modSwitchTo N p (newPoly N false) cs Q = .ok ⟨n.map (fun (c : Int) => (c : ZMod p)), false⟩ ∧
      n.length = N ∧ r.length = N ∧ C Q * listPoly n = C (p : Int) * listPoly cs + listPoly r ∧
      ∀ i, |r.getD i 0| ≤ Q / 2 := by
  obtain ⟨w, h1, h2, h3⟩ := C21_modSwitch p N Q hQ (newPoly N false) (by simp [newPoly]) cs hc
  have h4 : ∀ i, ∃ n : Int, i < N → w[i]? = some (n : ZMod p) ∧ 2 * |n * Q - cs.getD i 0 * p| ≤ Q := by
    intro i
    by_cases hi : i < N
    · obtain ⟨n, n1, n2, -⟩ := h3 i cs[i] (List.getElem?_eq_getElem (by omega))
      refine ⟨n, fun _ => ⟨n1, ?_⟩⟩
      rw [List.getD_eq_getElem _ _ (by omega)]; exact n2
    · exact ⟨0, fun h => absurd h hi⟩
  choose n hn using h4
  have g : ∀ (f : Nat → Int) (i : Nat), ((List.range N).map f).getD i 0 = if i < N then f i else 0 := by
    intro f i
    split_ifs with hi
    · rw [List.getD_eq_getElem _ _ (by simpa using hi)]; simp
    · rw [List.getD_eq_default _ _ (by simp; omega)]
  refine ⟨(List.range N).map n, (List.range N).map (fun i => n i * Q - cs.getD i 0 * p), ?_, by simp, by simp, ?_, ?_⟩
  · rw [h1]
    congr 2
    apply List.ext_getElem (by simp [h2])
    intro i hi1 hi2
    have := (hn i (by omega)).1
    rw [List.getElem?_eq_getElem hi1] at this
    simpa using this
  · ext i
    simp only [coeff_add, coeff_C_mul, listPoly_coeff, g]
    split_ifs with hi
    · ring
    · rw [List.getD_eq_default _ _ (by omega)]; ring
  · intro i
    rw [g]
    split_ifs with hi
    · have := (hn i hi).2
      omega
    · simp; omega

/-- The error that the program computes: as long as the encryption's own error `e` is short, the one after the
change of modulus is short. -/
theorem bfv_error {N : Nat} (hN : 1 ≤ N) {Q tInv B : Int} {t : Nat} (hQ : 0 < Q)
    {sk pt e n0 n1 r0 r1 c0 c1 : List Int} (hpt : pt.length = N)
    (he : e.length = N) (hr0 : r0.length = N) (hr1 : r1.length = N)
    (hskb : ∀ i, |sk.getD i 0| ≤ 1) (hskl : sk.length = N) (hptb : ∀ i, 2 * |pt.getD i 0| ≤ t) (heb : ∀ i, |e.getD i 0| ≤ B)
    (hB : 2 * (p * B) ≤ Q * (N + t - 2))
    (q0 : C Q * listPoly n0 = C (p : Int) * listPoly c0 + listPoly r0)
    (q1 : C Q * listPoly n1 = C (p : Int) * listPoly c1 + listPoly r1)
    (b0 : ∀ i, |r0.getD i 0| ≤ Q / 2) (b1 : ∀ i, |r1.getD i 0| ≤ Q / 2) {k : ℤ[X]}
    (henc : (X ^ N + 1 : ℤ[X]) ∣
      listPoly c0 + listPoly c1 * listPoly sk - (C tInv * listPoly pt + listPoly e + C Q * k)) :
    ∃ w : List Int, w.length = N ∧ (∀ i, |w.getD i 0| ≤ N + t - 1) ∧ ∃ k', (X ^ N + 1 : ℤ[X]) ∣
      listPoly n0 + listPoly n1 * listPoly sk - C (bfvDelta p tInv Q) * listPoly pt - (listPoly w + C (p : Int) * k') := by
  have hd := Int.emod_add_mul_ediv (tInv * p) Q
  have hd0 := Int.emod_nonneg (tInv * p) (ne_of_gt hQ)
  have hd1 := Int.emod_lt_of_pos (tInv * p) hQ
  set d := tInv * p % Q with hdd
  have hB0 : 0 ≤ B := (abs_nonneg _).trans (heb 0)
  have R1 := (RedTo.list he heb).smul (p : Int)
  have R2 := RedTo.list hr0 b0
  have R3 := RedTo.mul hN sk (RedTo.list hr1 b1)
  have R4 := (RedTo.list hpt (α := (t : Int) / 2) (fun i => by have := hptb i; omega)).smul d
  have R := ((R1.add R2).add R3).add R4
  have hS : (sk.map (|·|)).sum ≤ (N : Int) := by
    rw [← hskl]
    have : ∀ l : List Int, (∀ x ∈ l, |x| ≤ 1) → (l.map (|·|)).sum ≤ (l.length : Int) := by
      intro l
      induction l with
      | nil => simp
      | cons a l ih =>
        intro h
        have h1 := h a (by simp)
        have h2 := ih (fun x hx => h x (by simp [hx]))
        rw [List.map_cons, List.sum_cons, List.length_cons]
        push_cast
        linarith
    refine this sk fun x hx => ?_
    obtain ⟨i, hi, rfl⟩ := List.getElem_of_mem hx
    have := hskb i
    rwa [List.getD_eq_getElem _ _ hi] at this
  have hfin := RedTo.div (p := (p : Int)) hN hQ (f := listPoly n0 + listPoly n1 * listPoly sk -
    C (bfvDelta p tInv Q) * listPoly pt) (k := k) ?_ R
  · obtain ⟨w, w1, w2, w3⟩ := hfin
    refine ⟨w, w1, fun i => ?_, w3⟩
    have h1 := w2 i
    rw [Nat.abs_cast, abs_of_nonneg hd0] at h1
    have hq2 : 2 * (Q / 2) ≤ Q := by omega
    have ht2 : 2 * ((t : Int) / 2) ≤ t := by omega
    have hq0 : 0 ≤ Q / 2 := by omega
    have h2 : (sk.map (|·|)).sum * (Q / 2) ≤ N * (Q / 2) := mul_le_mul_of_nonneg_right hS hq0
    have h3 : d * ((t : Int) / 2) ≤ Q * ((t : Int) / 2) := mul_le_mul_of_nonneg_right hd1.le (by omega)
    have h4 : Q * (2 * ((t : Int) / 2)) ≤ Q * t := mul_le_mul_of_nonneg_left ht2 hQ.le
    have h5 : (N : Int) * (2 * (Q / 2)) ≤ N * Q := mul_le_mul_of_nonneg_left hq2 (by omega)
    have h6 : 2 * (Q * |w.getD i 0|) ≤ Q * (2 * N + 2 * t - 1) := by nlinarith
    by_contra hcon
    have h7 : Q * (N + t : Int) ≤ Q * |w.getD i 0| := mul_le_mul_of_nonneg_left (by omega) hQ.le
    nlinarith
  · obtain ⟨h, hh⟩ := henc
    have hdel : Q * bfvDelta p tInv Q = tInv * p - d := by unfold bfvDelta; linarith
    refine ⟨C (p : Int) * h, ?_⟩
    have hC : C Q * C (bfvDelta p tInv Q) = C tInv * C (p : Int) - C d := by
      rw [← C_mul, hdel, C_sub, C_mul]
    rw [C_mul]
    linear_combination q0 + q1 * listPoly sk + C (p : Int) * hh - hC * listPoly pt

theorem base_sum_ge {b : Nat} (hb : 2 ≤ b) {base : List Nat} (h : decomposeBase b = .ok base) : b - 1 ≤ base.sum := by
  obtain ⟨base', h1, -, h2, h3⟩ := decomposeBase_spec b hb
  rw [h] at h1; cases h1
  by_cases hc : ∃ k, b = 2 ^ k
  · rw [h3 hc]
  · rw [h2 hc]; omega

theorem map_listPoly (l : List Int) : listPoly (l.map (fun (c : Int) => (c : ZMod p))) =
    (listPoly l).map (Int.castRingHom (ZMod p)) := by
  rw [listPoly_map]; rfl

/-- The error polynomial in the transformed representation. -/
theorem bfv_error_ntt {K : Nat} {pts : Nat → ZMod p} {ev : Evaluator (ZMod p)}
    (hg : GoodEv K (X ^ 2 ^ K + 1) pts ev) (sk pt n0 n1 w : List Int) (delta : Int) {k' : ℤ[X]}
    (h : (X ^ 2 ^ K + 1 : ℤ[X]) ∣ listPoly n0 + listPoly n1 * listPoly sk - C delta * listPoly pt -
      (listPoly w + C (p : Int) * k')) {sn mn c0 c1 wn : List (ZMod p)}
    (ls : sn.length = 2 ^ K) (lm : mn.length = 2 ^ K) (l0 : c0.length = 2 ^ K) (l1 : c1.length = 2 ^ K)
    (lw : wn.length = 2 ^ K)
    (hs : ∀ i < 2 ^ K, sn.getD i 0 = (listPoly (sk.map (fun (c : Int) => (c : ZMod p)))).eval (pts i))
    (hm : ∀ i < 2 ^ K, mn.getD i 0 = (listPoly (pt.map (fun (c : Int) => (c : ZMod p)))).eval (pts i))
    (h0 : ∀ i < 2 ^ K, c0.getD i 0 = (listPoly (n0.map (fun (c : Int) => (c : ZMod p)))).eval (pts i))
    (h1 : ∀ i < 2 ^ K, c1.getD i 0 = (listPoly (n1.map (fun (c : Int) => (c : ZMod p)))).eval (pts i))
    (hw : ∀ i < 2 ^ K, wn.getD i 0 = (listPoly (w.map (fun (c : Int) => (c : ZMod p)))).eval (pts i)) :
    ∃ en, en = List.zipWith (· - ·) (List.zipWith (· + ·) (List.zipWith (· * ·) c1 sn) c0)
        (mn.map (· * (delta : ZMod p))) ∧ en.length = 2 ^ K ∧
      (∀ i < 2 ^ K, en.getD i 0 = c0.getD i 0 + c1.getD i 0 * sn.getD i 0 - (delta : ZMod p) * mn.getD i 0) ∧
      wn = en := by
  have henl : (List.zipWith (· - ·) (List.zipWith (· + ·) (List.zipWith (· * ·) c1 sn) c0)
        (mn.map (· * (delta : ZMod p)))).length = 2 ^ K := by simp [ls, lm, l0, l1]
  have henv : ∀ i < 2 ^ K, (List.zipWith (· - ·) (List.zipWith (· + ·) (List.zipWith (· * ·) c1 sn) c0)
        (mn.map (· * (delta : ZMod p)))).getD i 0 =
      c0.getD i 0 + c1.getD i 0 * sn.getD i 0 - (delta : ZMod p) * mn.getD i 0 := by
    intro i hi
    have g : ∀ (l : List (ZMod p)) (hl : i < l.length), l.getD i 0 = l[i] := fun l hl => List.getD_eq_getElem _ _ hl
    rw [g _ (by omega), g c0 (by omega), g c1 (by omega), g sn (by omega), g mn (by omega)]
    simp only [List.getElem_zipWith, List.getElem_map]
    ring
  refine ⟨_, rfl, henl, henv, ?_⟩
  apply List.ext_getElem (by omega)
  intro i hi1 hi2
  have hi : i < 2 ^ K := by omega
  have a1 := hw i hi
  have a2 := henv i hi
  rw [List.getD_eq_getElem _ _ hi1] at a1
  rw [List.getD_eq_getElem _ _ hi2] at a2
  rw [a1, a2, h0 i hi, h1 i hi, hs i hi, hm i hi]
  simp only [map_listPoly]
  have hdv : (X ^ 2 ^ K + 1 : (ZMod p)[X]) ∣ (listPoly n0 + listPoly n1 * listPoly sk - C delta * listPoly pt -
      (listPoly w + C (p : Int) * k')).map (Int.castRingHom (ZMod p)) := by
    obtain ⟨h, hh⟩ := h
    rw [hh, Polynomial.map_mul, Polynomial.map_add, Polynomial.map_pow, map_X, Polynomial.map_one]
    exact dvd_mul_right _ _
  have := (hg.pts.dvd_iff _).1 hdv i hi
  simp only [Polynomial.map_sub, Polynomial.map_add, Polynomial.map_mul, map_C, eval_sub, eval_add, eval_mul, eval_C] at this
  simp only [eq_intCast, Int.cast_natCast, CharP.cast_eq_zero, zero_mul, add_zero] at this
  linear_combination -this

theorem bfv_z1 {N t : Nat} (hp : 2 * (N + t) < p) {base : List Nat} (hs : t - 1 - 1 ≤ base.sum) (ht : 3 ≤ t)
    {pt : List Int}
    (hgm : ∀ (l : List Int) (i : Nat), (l.map (fun (c : Int) => (c : ZMod p))).getD i 0 = ((l.getD i 0 : Int) : ZMod p))
    (hb : ∀ i, 2 * |pt.getD i 0| ≤ t) (i : Nat) :
    excess base.sum ((pt.map (fun (c : Int) => (c : ZMod p))).getD i 0).valMinAbs = 0 := by
  have hb := hb i
  rw [valMinAbs_of (z := pt.getD i 0) (B := (t : Int) / 2) (hgm _ _) (by omega) (by omega), excess_zero]
  omega

theorem bfv_z2 {N t : Nat} (hp : 2 * (N + t) < p) {base : List Nat} (hs : N + t - 1 ≤ base.sum) (ht : 3 ≤ t)
    {w : List Int}
    (hgm : ∀ (l : List Int) (i : Nat), (l.map (fun (c : Int) => (c : ZMod p))).getD i 0 = ((l.getD i 0 : Int) : ZMod p))
    (hb : ∀ i, |w.getD i 0| ≤ N + t - 1) (i : Nat) :
    excess base.sum ((w.map (fun (c : Int) => (c : ZMod p))).getD i 0).valMinAbs = 0 := by
  have hb := hb i
  rw [valMinAbs_of (z := w.getD i 0) (B := (N : Int) + t - 1) (hgm _ _) (by omega) (by omega), excess_zero]
  omega

/-- **C113 (bfv, main).**  For every degree `N = 2^K ≥ 8`, plaintext modulus `t ≥ 3`, ciphertext modulus `Q` and
field with enough roots of unity, `2 (N + t) < p`: let `(ct0, ct1)` be an encryption of `pt` under the ternary key
`sk` with error `e`,

  `ct0 + ct1 * sk = tInv * pt + e  mod (Q, X^N + 1)`,

where the error, moved to the modulus of the field, is at most `(N + t) / 2 - 1`.  Then the program prints `true`:
the declared bound `N + t` covers the rounding errors of `ModSwitch` and of `delta`. -/
theorem C113_accepts {K : Nat} (hK : 3 ≤ K) (hd : 2 ^ (K + 3) ∣ p - 1) {t : Nat} (ht : 3 ≤ t)
    (hp : 2 * (2 ^ K + t) < p) {base1 base2 : List Nat} (hb1 : decomposeBase (t - 1) = .ok base1)
    (hb2 : decomposeBase (2 ^ K + t) = .ok base2) (R : Run p)
    (hR : R.Good (10 + base1.length + base2.length) (2 * 2 ^ K + 1)) (ty : Nat) (chk dl : Val (ZMod p))
    (hchk : NoLeaf chk) (hdl : NoLeaf dl) {Q tInv B : Int} (hQ : 0 < Q) {sk pt ct0 ct1 e : List Int}
    (hsk : sk.length = 2 ^ K) (hpt : pt.length = 2 ^ K) (h0 : ct0.length = 2 ^ K) (h1 : ct1.length = 2 ^ K)
    (he : e.length = 2 ^ K) (hskb : ∀ i, |sk.getD i 0| ≤ 1) (hptb : ∀ i, 2 * |pt.getD i 0| ≤ t)
    (heb : ∀ i, |e.getD i 0| ≤ B) (hB : 2 * (p * B) ≤ Q * (2 ^ K + t - 2))
    (henc : ∃ k : ℤ[X], (X ^ 2 ^ K + 1) ∣
      listPoly ct0 + listPoly ct1 * listPoly sk - (C tInv * listPoly pt + listPoly e + C Q * k)) :
    bfvMain R (2 ^ K) ty chk dl sk pt ct0 ct1 Q tInv t = .ok true := by
  have hp64 := lt_of_dvd hK hd
  have hNpos := Nat.two_pow_pos K
  have f1 : 1 ≤ K := by clear hB; omega
  have f2 : 2 ≤ t - 1 := by clear hB; omega
  have f3 : 2 ≤ 2 ^ K + t := by clear hB; omega
  have f4 : 11 < p := by clear hB; omega
  have f5 := base_sum_ge f2 hb1
  have f6 := base_sum_ge f3 hb2
  obtain ⟨k, henc⟩ := henc
  obtain ⟨ev, L, psi, e1, e2, hg, hL, hfwd, hinv⟩ := ring_setup (p := p) hK (two_dvd_of hd)
  obtain ⟨n0, r0, m01, m02, m03, m04, m05⟩ := modSwitch_ints (p := p) hQ ct0 h0
  obtain ⟨n1, r1, m11, m12, m13, m14, m15⟩ := modSwitch_ints (p := p) hQ ct1 h1
  obtain ⟨w, w1, w2, k', w3⟩ := bfv_error hNpos hQ hpt he m03 m13 hskb hsk hptb heb (by push_cast; exact hB) m04 m14
    m05 m15 henc
  have hlen : ∀ {l : List Int}, l.length = 2 ^ K → (l.map (fun (c : Int) => (c : ZMod p))).length = 2 ^ K :=
    fun h => by rw [List.length_map, h]
  obtain ⟨sn, s1, s2, s3, s4⟩ := hfwd _ (hlen hsk)
  obtain ⟨mn, p1, p2, p3, p4⟩ := hfwd _ (hlen hpt)
  obtain ⟨c0, c01, c02, c03, c04⟩ := hfwd _ (hlen m02)
  obtain ⟨c1, c11, c12, c13, c14⟩ := hfwd _ (hlen m12)
  obtain ⟨wn, q1, q2, q3, q4⟩ := hfwd _ (hlen w1)
  set delta := bfvDelta p tInv Q with hdelta
  obtain ⟨en, hen, henl, henv, hwn⟩ := bfv_error_ntt hg sk pt n0 n1 w delta w3 s1 p1 c01 c11 q1 s4 p4 c04 c14 q4
  subst hwn
  obtain ⟨ec, x1, x2, x3⟩ := hinv wn henl
  have hec : ec = w.map (fun (c : Int) => (c : ZMod p)) := by
    refine transform_inj hg x1 (hlen w1) fun i hi => ?_
    obtain ⟨y, -, -, y2, y3⟩ := hfwd ec x1
    rw [x3] at y2; cases y2
    rw [← y3 i hi, ← q4 i hi]
  obtain ⟨cp, d1, -⟩ := ct_compile (p := p) (K := K) f1 hd ty delta f2 f3 hb1 hb2
  unfold bfvMain
  rw [e1, go_bind_ok, s2, go_bind_ok]
  simp only
  rw [p2, go_bind_ok, hg.rank, m01, go_bind_ok, m11, go_bind_ok, c02, go_bind_ok, c12, go_bind_ok]
  have hmul : ev.mulTo (newPoly (2 ^ K) true) ⟨c1, true⟩ ⟨sn, true⟩ = .ok ⟨List.zipWith (· * ·) c1 sn, true⟩ := by
    unfold Evaluator.mulTo checkBinary
    rw [hg.rank, if_neg (by simp [newPoly, c11, s1]), if_neg (by simp)]
    rfl
  have hadd : ev.addTo ⟨List.zipWith (· * ·) c1 sn, true⟩ ⟨List.zipWith (· * ·) c1 sn, true⟩ ⟨c0, true⟩ =
      .ok ⟨List.zipWith (· + ·) (List.zipWith (· * ·) c1 sn) c0, true⟩ := by
    unfold Evaluator.addTo checkBinary
    rw [hg.rank, if_neg (by simp [c11, s1, c01]), if_neg (by simp)]
    rfl
  have hsub : ev.scalarMulSubTo ⟨List.zipWith (· + ·) (List.zipWith (· * ·) c1 sn) c0, true⟩ ⟨mn, true⟩
      (delta : ZMod p) = .ok ⟨wn, true⟩ := by
    unfold Evaluator.scalarMulSubTo checkUnary
    rw [hg.rank, if_neg (by simp [c11, s1, c01, p1]), hen]
    rfl
  rw [hmul, go_bind_ok, hadd, go_bind_ok, ← hdelta, hsub, go_bind_ok, x2, go_bind_ok, e2, go_bind_ok,
    compileCt_eq f4 (2 ^ K) ty chk dl hchk hdl ⟨chk, t, 2 ^ K + t, [], [], [], delta, [], [], [], []⟩, d1,
    go_bind_ok]
  have hgm : ∀ (l : List Int) (i : Nat), (l.map (fun (c : Int) => (c : ZMod p))).getD i 0 = ((l.getD i 0 : Int) : ZMod p) := by
    intro l i
    rw [List.getD_eq_getElem?_getD, List.getD_eq_getElem?_getD, List.getElem?_map]
    cases l[i]? <;> simp
  refine ct_run hK (odd_of_dvd hd) hd R delta f2 f3 hb1 hb2 hR.correct hR.rank hR.ord hR.two ty hL d1
    _ _ _ _ _ _ _ c01 c11 s1 p1 (hlen hpt) henl x1 p3 x3 ?_
  intro i hi
  have z2 := bfv_z2 hp f6 ht hgm (by push_cast at w2 ⊢; exact w2) i
  rw [← hec] at z2
  rw [bfv_z1 hp f5 ht hgm hptb i, z2]
  have hv := henv i hi
  simp only at hv ⊢
  rw [hv]
  push_cast
  ring

/-- **C113 (bfv, meaning of `Define`).**  The constraints that `Define` adds hold for the transforms of `C0`, `C1`
and `S` exactly if `MessageNTT` and `ErrorNTT` are the transforms of `M` and `E`, `C0 + C1 S = delta M + E` modulo
`X^N + 1`, and the coefficients of `M` and `E` are within `t - 1` and the error bound (`Within`: a bound that is a
power of two cannot be attained). -/
theorem C113_meaning {K : Nat} (hK : 3 ≤ K) (hd : 2 ^ (K + 3) ∣ p - 1) (chk dl : Val (ZMod p)) (hchk : NoLeaf chk)
    (hdl : NoLeaf dl) (delta : Int) (t errBound : Nat) :
    ∃ ev L ops, newCyclotomicEvaluator p (2 ^ K) = .ok ev ∧ newNTTChecker p (2 ^ K) = .ok L ∧
      (CtCircuit.read ⟨chk, t, errBound, [], [], [], delta, [], [], [], []⟩
        (firstWalk (CtCircuit.val dl ⟨chk, t, errBound, [], [], [], delta, [], [], [], []⟩) ⟨0, 0⟩).1 >>=
          CtCircuit.define) = .ok ops ∧
      ∀ C0 C1 S M E CN0 CN1 SN MN EN : List (ZMod p), C0.length = 2 ^ K → C1.length = 2 ^ K → S.length = 2 ^ K →
        M.length = 2 ^ K → E.length = 2 ^ K → ev.toNTT ⟨C0, false⟩ = .ok ⟨CN0, true⟩ →
        ev.toNTT ⟨C1, false⟩ = .ok ⟨CN1, true⟩ → ev.toNTT ⟨S, false⟩ = .ok ⟨SN, true⟩ →
        ((∀ op ∈ ops, op.HonestFor (2 ^ K) (fun _ => L) [CN0, CN1] [SN, MN, M, EN, E]) ↔
          ev.toNTT ⟨M, false⟩ = .ok ⟨MN, true⟩ ∧ ev.toNTT ⟨E, false⟩ = .ok ⟨EN, true⟩ ∧
          (Polynomial.X ^ 2 ^ K + 1) ∣
            listPoly C0 + listPoly C1 * listPoly S - (C (delta : ZMod p) * listPoly M + listPoly E) ∧
          (∀ i < 2 ^ K, Within (M.getD i 0).valMinAbs (t - 1)) ∧
          ∀ i < 2 ^ K, Within (E.getD i 0).valMinAbs errBound) := by
  have hp := lt_of_dvd hK hd
  obtain ⟨ev, L, psi, h1, h2, hg, hL, hfwd, hinv⟩ := ring_setup (p := p) hK (two_dvd_of hd)
  refine ⟨ev, L, ctOps delta (t - 1) errBound, h1, h2,
    ctDefine (by omega) chk dl hchk hdl ⟨chk, t, errBound, [], [], [], delta, [], [], [], []⟩, ?_⟩
  intro C0 C1 S M E CN0 CN1 SN MN EN l0 l1 ls lm le hC0 hC1 hS
  obtain ⟨c0, a1, a2, -, a4⟩ := hfwd C0 l0
  obtain ⟨c1, b1, b2, -, b4⟩ := hfwd C1 l1
  obtain ⟨s, s1, s2, -, s4⟩ := hfwd S ls
  obtain ⟨m, m1, m2, m3, m4⟩ := hfwd M lm
  obtain ⟨e, e1, e2, e3, e4⟩ := hfwd E le
  rw [a2] at hC0; rw [b2] at hC1; rw [s2] at hS
  cases hC0; cases hC1; cases hS
  have hops : (∀ op ∈ (ctOps delta (t - 1) errBound : List (CtxOp (ZMod p))),
        op.HonestFor (2 ^ K) (fun _ => L) [CN0, CN1] [SN, MN, M, EN, E]) ↔
      L.transformTo (List.replicate (2 ^ K) 0) M = .ok MN ∧ L.transformTo (List.replicate (2 ^ K) 0) E = .ok EN ∧
      (∀ i < 2 ^ K, CN0.getD i 0 + CN1.getD i 0 * SN.getD i 0 - (delta : ZMod p) * MN.getD i 0 - EN.getD i 0 = 0) ∧
      (∀ i < 2 ^ K, Within (M.getD i 0).valMinAbs (t - 1)) ∧
      (∀ i < 2 ^ K, Within (E.getD i 0).valMinAbs errBound) := by
    simp only [ctOps, List.forall_mem_cons, List.not_mem_nil, IsEmpty.forall_iff, implies_true, and_true,
      CtxOp.HonestFor]
    refine and_congr Iff.rfl (and_congr Iff.rfl (and_congr (forall₂_congr fun i _ => ?_) (and_congr ?_ ?_)))
    · have : Constraint.onRow
          [⟨1, some 0, []⟩, ⟨1, some 1, [0]⟩, ⟨((-delta : Int) : ZMod p), none, [1]⟩, ⟨-1, none, [3]⟩] [CN0, CN1]
          [SN, MN, M, EN, E] i =
          CN0.getD i 0 + CN1.getD i 0 * SN.getD i 0 - (delta : ZMod p) * MN.getD i 0 - EN.getD i 0 := by
        simp only [Constraint.onRow, Constraint.value, Term.value, rowOf, List.getD_eq_getElem?_getD,
          List.map_cons, List.map_nil, List.prod_cons, List.prod_nil, List.sum_cons, List.sum_nil]
        simp
        ring
      rw [this]
    · exact ⟨fun h => h.2, fun h => ⟨Int.natCast_nonneg _, h⟩⟩
    · exact ⟨fun h => h.2, fun h => ⟨Int.natCast_nonneg _, h⟩⟩
  rw [hops, m3, e3, m2, e2]
  constructor
  · rintro ⟨g1, g2, g3, g4⟩
    cases g1; cases g2
    refine ⟨rfl, rfl, (hg.pts.dvd_iff _).2 fun i hi => ?_, g4⟩
    have := g3 i hi
    rw [a4 i hi, b4 i hi, s4 i hi, m4 i hi, e4 i hi] at this
    simp only [eval_sub, eval_add, eval_mul, eval_C]
    linear_combination this
  · rintro ⟨g1, g2, g3, g4⟩
    cases g1; cases g2
    refine ⟨rfl, rfl, fun i hi => ?_, g4⟩
    have := (hg.pts.dvd_iff _).1 g3 i hi
    simp only [eval_sub, eval_add, eval_mul, eval_C] at this
    rw [a4 i hi, b4 i hi, s4 i hi, m4 i hi, e4 i hi]
    linear_combination this

/-- **C113 (bfv, what the circuit leaves open).**  `SecretKeyNTT` occurs in one constraint and nothing bounds the
key.  For every ciphertext whose second component is invertible (no entry of `NTT(C1)` is zero), every message `M`
within the declared bound has an accepted proof, with error zero and all constraints of `Define` satisfied: the
proof tells nothing about the content of the ciphertext. -/
theorem C113_refuted {K : Nat} (hK : 3 ≤ K) (hd : 2 ^ (K + 3) ∣ p - 1) (ty : Nat) (chk dl : Val (ZMod p))
    (hchk : NoLeaf chk) (hdl : NoLeaf dl) (delta : Int) {t errBound : Nat} (ht : 3 ≤ t) (he : 2 ≤ errBound)
    {base1 base2 : List Nat} (hb1 : decomposeBase (t - 1) = .ok base1) (hb2 : decomposeBase errBound = .ok base2) :
    ∃ ev L cp ops, newCyclotomicEvaluator p (2 ^ K) = .ok ev ∧ newNTTChecker p (2 ^ K) = .ok L ∧
      compileCt (2 ^ K) ty dl ⟨chk, t, errBound, [], [], [], delta, [], [], [], []⟩ = .ok cp ∧
      (CtCircuit.read ⟨chk, t, errBound, [], [], [], delta, [], [], [], []⟩
        (firstWalk (CtCircuit.val dl ⟨chk, t, errBound, [], [], [], delta, [], [], [], []⟩) ⟨0, 0⟩).1 >>=
          CtCircuit.define) = .ok ops ∧
      ∀ CN0 CN1 M : List (ZMod p), CN0.length = 2 ^ K → CN1.length = 2 ^ K → M.length = 2 ^ K →
        (∀ i < 2 ^ K, CN1.getD i 0 ≠ 0) → (∀ i < 2 ^ K, Within (M.getD i 0).valMinAbs (t - 1)) →
        ∃ SN MN, ev.toNTT ⟨M, false⟩ = .ok ⟨MN, true⟩ ∧
          (∀ op ∈ ops, op.HonestFor (2 ^ K) (fun _ => L) [CN0, CN1]
            [SN, MN, M, List.replicate (2 ^ K) 0, List.replicate (2 ^ K) 0]) ∧
          ∀ R : Run p, R.Good (10 + base1.length + base2.length) (2 * 2 ^ K + 1) → proveAndVerify R L cp ty
            (CtCircuit.val .nilPtr ⟨.nilPtr, 0, 0, CN0, CN1, SN, 0, MN, M, List.replicate (2 ^ K) 0,
              List.replicate (2 ^ K) 0⟩)
            (CtCircuit.val .nilPtr ⟨.nilPtr, 0, 0, CN0, CN1, [], 0, [], [], [], []⟩) = .ok true := by
  have hp := lt_of_dvd hK hd
  obtain ⟨ev, L, psi, h1, h2, hg, hL, hfwd, hinv⟩ := ring_setup (p := p) hK (two_dvd_of hd)
  obtain ⟨cp, d1, -⟩ := ct_compile (p := p) (K := K) (by omega) hd ty delta (b1 := t - 1) (b2 := errBound) (by omega)
    he hb1 hb2
  refine ⟨ev, L, cp, ctOps delta (t - 1) errBound, h1, h2, ?_,
    ctDefine (by omega) chk dl hchk hdl ⟨chk, t, errBound, [], [], [], delta, [], [], [], []⟩, ?_⟩
  · rw [compileCt_eq (by omega) (2 ^ K) ty chk dl hchk hdl ⟨chk, t, errBound, [], [], [], delta, [], [], [], []⟩]
    exact d1
  intro CN0 CN1 M l0 l1 lm hne hM
  obtain ⟨mn, m1, m2, m3, -⟩ := hfwd M lm
  have hz : L.transformTo (List.replicate (2 ^ K) 0) (List.replicate (2 ^ K) (0 : ZMod p)) =
      .ok (List.replicate (2 ^ K) 0) := by
    obtain ⟨z, z1, -, z3, z4⟩ := hfwd (List.replicate (2 ^ K) (0 : ZMod p)) (by simp)
    have : z = List.replicate (2 ^ K) 0 := by
      apply List.ext_getElem (by simp [z1])
      intro i hi1 hi2
      have := z4 i (by omega)
      rw [List.getD_eq_getElem _ _ hi1] at this
      have h0 : listPoly (List.replicate (2 ^ K) (0 : ZMod p)) = 0 := by
        ext j
        rw [listPoly_coeff, List.getD_eq_getElem?_getD, List.getElem?_replicate]; split_ifs <;> simp
      rw [this, List.getElem_replicate, h0, eval_zero]
    rw [z3, this]
  have hz0 : ∀ i, (List.replicate (2 ^ K) (0 : ZMod p)).getD i 0 = 0 := fun i => by
    rw [List.getD_eq_getElem?_getD, List.getElem?_replicate]; split_ifs <;> rfl
  set sn := (List.range (2 ^ K)).map (fun i => ((delta : ZMod p) * mn.getD i 0 - CN0.getD i 0) / CN1.getD i 0) with hsn
  have hsnl : sn.length = 2 ^ K := by simp [hsn]
  have hsnv : ∀ i < 2 ^ K, CN0.getD i 0 + CN1.getD i 0 * sn.getD i 0 - (delta : ZMod p) * mn.getD i 0 = 0 := by
    intro i hi
    have : sn.getD i 0 = ((delta : ZMod p) * mn.getD i 0 - CN0.getD i 0) / CN1.getD i 0 := by
      rw [List.getD_eq_getElem _ _ (by omega)]; simp [hsn]
    rw [this, mul_div_cancel₀ _ (hne i hi)]
    ring
  refine ⟨sn, mn, m2, ?_, fun R hR => ?_⟩
  · simp only [ctOps, List.forall_mem_cons, List.not_mem_nil, IsEmpty.forall_iff, implies_true, and_true,
      CtxOp.HonestFor]
    refine ⟨m3, hz, fun i hi => ?_, ⟨Int.natCast_nonneg _, hM⟩, ⟨Int.natCast_nonneg _, fun i hi => ?_⟩⟩
    · have : Constraint.onRow
          [⟨1, some 0, []⟩, ⟨1, some 1, [0]⟩, ⟨((-delta : Int) : ZMod p), none, [1]⟩, ⟨-1, none, [3]⟩] [CN0, CN1]
          [sn, mn, M, List.replicate (2 ^ K) 0, List.replicate (2 ^ K) 0] i =
          CN0.getD i 0 + CN1.getD i 0 * sn.getD i 0 - (delta : ZMod p) * mn.getD i 0 -
            (List.replicate (2 ^ K) (0 : ZMod p)).getD i 0 := by
        simp only [Constraint.onRow, Constraint.value, Term.value, rowOf, List.getD_eq_getElem?_getD,
          List.map_cons, List.map_nil, List.prod_cons, List.prod_nil, List.sum_cons, List.sum_nil]
        simp
        ring
      rw [this, hsnv i hi, hz0, sub_zero]
    · have : rowOf [sn, mn, M, List.replicate (2 ^ K) 0, List.replicate (2 ^ K) 0] i 4 = (0 : ZMod p) := hz0 i
      rw [this, ZMod.valMinAbs_zero]
      refine ⟨by simp, ?_⟩
      rintro -
      rw [Int.toNat_natCast, abs_zero]
      omega
  · refine ct_run hK (odd_of_dvd hd) hd R delta (by omega) he hb1 hb2 hR.correct hR.rank hR.ord hR.two ty hL d1
      _ _ _ _ _ _ _ l0 l1 hsnl m1 lm (by simp) (by simp) m3 hz ?_
    intro i hi
    have z1 : excess base1.sum (M.getD i 0).valMinAbs = 0 := by
      obtain ⟨hw1, hw2⟩ := hM i hi
      rw [excess_zero]
      obtain ⟨base', g1, -, g2, g3⟩ := decomposeBase_spec (t - 1) (by omega)
      rw [hb1] at g1; cases g1
      by_cases hc : ∃ k, t - 1 = 2 ^ k
      · rw [g3 hc]
        obtain ⟨k, hk⟩ := hc
        have := hw2 ⟨k, by
          by_contra hk0
          have : k = 0 := by omega
          subst this; simp at hk; omega, hk⟩
        omega
      · rw [g2 hc]; exact hw1
    have z2 : excess base2.sum ((List.replicate (2 ^ K) (0 : ZMod p)).getD i 0).valMinAbs = 0 := by
      rw [hz0, ZMod.valMinAbs_zero, excess_zero, abs_zero]; exact Int.natCast_nonneg _
    rw [z1, z2, hz0]
    push_cast
    linear_combination hsnv i hi

end

/-- The field of the example: rank 2^13 and the prime 31432^16 + 1. -/
theorem bfv_field : Nat.Prime bfvPkg.p ∧ 2 ^ (13 + 3) ∣ bfvPkg.p - 1 ∧ 2 * (2 ^ 13 + 65537) < bfvPkg.p := by
  rw [bfv_p]
  exact ⟨bfv_prime, by norm_num, by norm_num⟩

theorem listPoly_zeros {A : Type} [CommRing A] (n : Nat) : listPoly (List.replicate n (0 : A)) = 0 := by
  ext j
  rw [listPoly_coeff, List.getD_eq_getElem?_getD, List.getElem?_replicate]; split_ifs <;> simp

/-- A list of `N` numbers with the given first ones. -/
def padTo (N : Nat) (l : List Int) : List Int := l ++ List.replicate (N - l.length) 0

theorem padTo_length {N : Nat} {l : List Int} (h : l.length ≤ N) : (padTo N l).length = N := by
  simp [padTo]; omega

theorem padTo_bound {N : Nat} {l : List Int} {B : Int} (hB : 0 ≤ B) (h : ∀ x ∈ l, |x| ≤ B) (i : Nat) :
    |(padTo N l).getD i 0| ≤ B := by
  unfold padTo
  rw [List.getD_eq_getElem?_getD, List.getElem?_append]
  split_ifs with hi
  · rw [List.getElem?_eq_getElem hi]; exact h _ (List.getElem_mem hi)
  · rw [List.getElem?_replicate]; split_ifs <;> simpa using hB

/-- **Case for C113.**  The program at its own degree, plaintext modulus and field, for every ciphertext modulus
not below the field's: the message `1 + 2 X + 3 X^2 - 4 X^3`, the key `1 - X`, the mask `X` and the error `1`. -/
theorem C113_case : ∃ _ : Fact bfvPkg.p.Prime, ∀ hash xof marshal setBytes enc lin sum (Q tInv : Int),
    (bfvPkg.p : Int) ≤ Q →
    bfvMain (plainRun bfvPkg.p (2 * 2 ^ 13 + 1) hash xof marshal setBytes enc lin sum) (2 ^ 13) 0 .nilPtr .nilPtr
      (padTo (2 ^ 13) [1, -1]) (padTo (2 ^ 13) [1, 2, 3, -4])
      (padTo (2 ^ 13) [tInv + 1, 2 * tInv - 1, 3 * tInv + 1, -(4 * tInv)]) (padTo (2 ^ 13) [0, 1]) Q tInv 65537 =
      .ok true := by
  have hpr : Fact bfvPkg.p.Prime := ⟨bfv_field.1⟩
  refine ⟨hpr, fun hash xof marshal setBytes enc lin sum Q tInv hQ => ?_⟩
  have hp0 : 0 < bfvPkg.p := hpr.out.pos
  obtain ⟨base1, b1, -⟩ := decomposeBase_spec (65537 - 1) (by norm_num)
  obtain ⟨base2, b2, -⟩ := decomposeBase_spec (2 ^ 13 + 65537) (by norm_num)
  refine C113_accepts (K := 13) (by norm_num) bfv_field.2.1 (by norm_num) bfv_field.2.2 b1 b2 _
    (plainRun_good _ _ _ _ _ _ _ _ _ _) 0 _ _ nilPtr_noLeaf nilPtr_noLeaf (B := 1) (e := padTo (2 ^ 13) [1]) (by omega)
    (padTo_length (by norm_num)) (padTo_length (by norm_num)) (padTo_length (by norm_num))
    (padTo_length (by norm_num)) (padTo_length (by norm_num)) (padTo_bound (by norm_num) (by simp)) ?_
    (padTo_bound (by norm_num) (by simp)) ?_ ⟨0, ?_⟩
  · intro i
    have := padTo_bound (N := 2 ^ 13) (l := [1, 2, 3, -4]) (B := 4) (by norm_num) (by simp) i
    exact (mul_le_mul_of_nonneg_left this (by norm_num)).trans (by norm_num)
  · push_cast
    linarith
  · refine ⟨0, ?_⟩
    simp only [padTo, List.cons_append, List.nil_append, listPoly_cons, listPoly_zeros, map_add, map_sub, map_mul,
      map_neg, map_one, map_zero, map_ofNat]
    ring

/-- **Case for C113_refuted.**  In the example's own field and degree the ciphertext `(1, 1)`, given by its
transforms, has accepted proofs for the messages 0 and 1. -/
theorem C113_refuted_case : ∃ _ : Fact bfvPkg.p.Prime, ∃ L cp, newNTTChecker bfvPkg.p (2 ^ 13) = .ok L ∧
    compileCt (2 ^ 13) 0 .nilPtr ⟨.nilPtr, 65537, 2 ^ 13 + 65537, [], [], [], 7, [], [], [], []⟩ = .ok cp ∧
    ∀ hash xof marshal setBytes enc lin sum, ∀ m : Fin 2, ∃ SN MN Z,
      proveAndVerify (plainRun bfvPkg.p (2 * 2 ^ 13 + 1) hash xof marshal setBytes enc lin sum) L cp 0
        (CtCircuit.val .nilPtr ⟨.nilPtr, 0, 0, List.replicate (2 ^ 13) 1, List.replicate (2 ^ 13) 1, SN, 0, MN,
          List.replicate (2 ^ 13) ((m : Nat) : ZMod bfvPkg.p), Z, Z⟩)
        (CtCircuit.val .nilPtr ⟨.nilPtr, 0, 0, List.replicate (2 ^ 13) 1, List.replicate (2 ^ 13) 1, [], 0, [], [],
          [], []⟩) = .ok true := by
  have hpr : Fact bfvPkg.p.Prime := ⟨bfv_field.1⟩
  have hp2 : 2 < bfvPkg.p := by have := bfv_field.2.2; omega
  obtain ⟨base1, b1, -⟩ := decomposeBase_spec (65537 - 1) (by norm_num)
  obtain ⟨base2, b2, -⟩ := decomposeBase_spec (2 ^ 13 + 65537) (by norm_num)
  obtain ⟨ev, L, cp, ops, -, h2, h3, -, h⟩ := C113_refuted (p := bfvPkg.p) (K := 13) (by norm_num) bfv_field.2.1 0 .nilPtr
    .nilPtr nilPtr_noLeaf nilPtr_noLeaf 7 (t := 65537) (errBound := 2 ^ 13 + 65537) (by norm_num) (by norm_num) b1 b2
  refine ⟨hpr, L, cp, h2, h3, fun hash xof marshal setBytes enc lin sum m => ?_⟩
  have hr : ∀ (x : ZMod bfvPkg.p), ∀ i < 2 ^ 13, (List.replicate (2 ^ 13) x).getD i 0 = x := by
    intro x i hi
    rw [List.getD_eq_getElem?_getD, List.getElem?_replicate, if_pos hi]; rfl
  obtain ⟨SN, MN, -, -, g⟩ := h (List.replicate (2 ^ 13) 1) (List.replicate (2 ^ 13) 1)
    (List.replicate (2 ^ 13) ((m : Nat) : ZMod bfvPkg.p)) (by rw [List.length_replicate]) (by rw [List.length_replicate])
    (by rw [List.length_replicate]) (fun i hi => by rw [hr _ i hi]; exact one_ne_zero) (fun i hi => by
      rw [hr _ i hi, valMinAbs_of (z := ((m : Nat) : Int)) (B := 1) (by push_cast; rfl) (by
        rw [Nat.abs_cast]; have := m.2; omega) (by omega)]
      rw [Within, Nat.abs_cast]
      have := m.2
      exact ⟨by omega, fun _ => by omega⟩)
  exact ⟨SN, MN, _, g _ (plainRun_good _ _ _ _ _ _ _ _ _ _)⟩

end Ringo
