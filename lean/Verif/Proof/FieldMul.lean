import Verif.Proof.Field
import Verif.Spec.Field

/-! # Montgomery multiplication: the numbers computed -/

namespace Ringo

namespace FieldPkg

variable {P : FieldPkg}

theorem Good.pos (h : P.Good) : 0 < P.p := h.prime.pos

theorem p_lt (h : P.Good) : P.p < (2 ^ 64) ^ P.n := wv_lt (l := P.q) h.q_words

theorem smaller_spec (h : P.Good) {z : List Nat} (hz : z.length = P.n) (wz : Words z) :
    P.smaller z = true ↔ wv z < P.p :=
  ltTop_spec P.n z P.q hz rfl wz h.q_words

/-- The number `z` and the carry `c` above it, reduced by one subtraction. -/
theorem subtract_spec (h : P.Good) {z : List Nat} (hz : z.length = P.n) (wz : Words z) {c : Nat}
    (h1 : P.p ≤ wv z + (2 ^ 64) ^ P.n * c) (h2 : wv z + (2 ^ 64) ^ P.n * c < 2 * P.p) :
    wv (subChain z P.q 0).1 + P.p = wv z + (2 ^ 64) ^ P.n * c ∧ (subChain z P.q 0).1.length = P.n ∧
      Words (subChain z P.q 0).1 := by
  obtain ⟨e, l, w, b⟩ := subChain_spec z P.q 0 wz h.q_words hz (by omega)
  have hp := p_lt h
  have hlt := wv_lt w
  rw [l, hz] at hlt
  rw [hz] at e
  refine ⟨?_, by rw [l, hz], w⟩
  have ep : wv P.q = P.p := rfl
  rw [ep] at e
  generalize (2 ^ 64) ^ P.n = B at *
  generalize (subChain z P.q 0).2 = b' at *
  have : b' = c := by
    rcases Nat.lt_trichotomy b' c with hh | hh | hh
    · have : B * b' + B ≤ B * c := by
        calc B * b' + B = B * (b' + 1) := by ring
          _ ≤ B * c := Nat.mul_le_mul_left _ hh
      omega
    · exact hh
    · have : B * c + B ≤ B * b' := by
        calc B * c + B = B * (c + 1) := by ring
          _ ≤ B * b' := Nat.mul_le_mul_left _ hh
      omega
  subst this
  omega

theorem reduce_spec (h : P.Good) {z : List Nat} (hz : z.length = P.n) (wz : Words z)
    (h2 : wv z < 2 * P.p) :
    wv (P.reduce z) = wv z % P.p ∧ (P.reduce z).length = P.n ∧ Words (P.reduce z) := by
  unfold reduce
  by_cases hs : P.smaller z = true
  · rw [hs]
    have := (smaller_spec h hz wz).1 hs
    simp only [Bool.not_true, Bool.false_eq_true, if_false]
    exact ⟨(Nat.mod_eq_of_lt this).symm, hz, wz⟩
  · have hs' : P.smaller z = false := by simpa using hs
    rw [hs']
    have hge : P.p ≤ wv z := by
      by_contra hlt
      exact hs ((smaller_spec h hz wz).2 (by omega))
    obtain ⟨e, l, w⟩ := subtract_spec h hz wz (c := 0) (by omega) (by omega)
    simp only [Bool.not_false, if_true]
    refine ⟨?_, l, w⟩
    have : wv z = wv (subChain z P.q 0).1 + P.p := by omega
    rw [this, Nat.add_mod_right, Nat.mod_eq_of_lt (by omega)]

/-- The words of the modulus, split. -/
theorem q_split (h : P.Good) : ∃ q0 qs, P.q = q0 :: qs ∧ q0 < 2 ^ 64 ∧ Words qs ∧ qs.length + 1 = P.n ∧
    P.p = q0 + 2 ^ 64 * wv qs := by
  have h2 := h.two_le
  have hw := h.q_words
  unfold FieldPkg.n at *
  unfold FieldPkg.p
  rcases hq : P.q with _ | ⟨q0, qs⟩
  · rw [hq] at h2; simp at h2
  · rw [hq] at hw
    exact ⟨q0, qs, rfl, Words.head hw, Words.tail' hw, by simp, wv_cons q0 qs⟩

/-- The low word vanishes after adding `m q`. -/
theorem low_zero (h : P.Good) {q0 : Nat} {qs : List Nat} (hq : P.p = q0 + 2 ^ 64 * wv qs) (t : Nat) :
    ((t * P.qInvNeg % 2 ^ 64) * q0 + t) % 2 ^ 64 = 0 := by
  have hi := h.inv
  have e : P.qInvNeg * P.p + 1 = (P.qInvNeg * q0 + 1) + 2 ^ 64 * (P.qInvNeg * wv qs) := by rw [hq]; ring
  rw [e, Nat.add_mul_mod_self_left] at hi
  have h1 : ((t * P.qInvNeg % 2 ^ 64) * q0 + t) % 2 ^ 64 = (t * P.qInvNeg * q0 + t) % 2 ^ 64 := by
    rw [Nat.add_mod, Nat.mod_mul_mod, ← Nat.add_mod]
  rw [h1]
  have h2 : t * P.qInvNeg * q0 + t = t * (P.qInvNeg * q0 + 1) := by ring
  rw [h2, Nat.mul_mod, hi, Nat.mul_zero, Nat.zero_mod]

/-! ### The variant with an extra word -/

theorem ciosReduce_spec (h : P.Good) {t : List Nat} (ht : t.length = P.n) (wt : Words t) {top D : Nat}
    (htop : top < 2 ^ 64) (hD : D ≤ 1) :
    ∃ m < 2 ^ 64, 2 ^ 64 * (wv (P.ciosReduce t top D).1 + (2 ^ 64) ^ P.n * (P.ciosReduce t top D).2) =
        wv t + (2 ^ 64) ^ P.n * top + (2 ^ 64) ^ (P.n + 1) * D + m * P.p ∧
      (P.ciosReduce t top D).1.length = P.n ∧ Words (P.ciosReduce t top D).1 ∧
      (P.ciosReduce t top D).2 < 2 ^ 64 := by
  obtain ⟨q0, qs, hq, hq0, wqs, lqs, ep⟩ := q_split h
  rcases t with _ | ⟨t0, ts⟩
  · have := h.two_le; simp at ht; omega
  have lts : ts.length + 1 = P.n := by simpa using ht
  refine ⟨t0 * P.qInvNeg % 2 ^ 64, Nat.mod_lt _ (by norm_num), ?_⟩
  simp only [ciosReduce, hq, List.headD_cons, List.tail_cons]
  have hz := low_zero h ep t0
  have hmlt : t0 * P.qInvNeg % 2 ^ 64 < 2 ^ 64 := Nat.mod_lt _ (by norm_num)
  generalize t0 * P.qInvNeg % 2 ^ 64 = m at *
  obtain ⟨e0, l0⟩ := madd0_spec hmlt hq0 wt.head hz
  obtain ⟨e1, l1, w1, b1⟩ := madd2Row_spec hmlt qs ts (madd0 m q0 t0) wqs wt.tail' (by omega) l0
  generalize madd0 m q0 t0 = C0 at *
  generalize madd2Row m qs ts C0 = r at *
  have e2 := add64_spec top r.2 0
  have b2 := add64_lt top r.2 0
  have c2 := add64_carry htop b1 (show 0 ≤ 1 by omega)
  generalize add64 top r.2 0 = a at *
  have e3 : (add64 0 D a.2).1 = D + a.2 := by
    simp only [add64]; omega
  rw [e3]
  refine ⟨?_, by simp [l1, lqs], w1.append (Words.nil.cons b2), by omega⟩
  rw [wv_concat, l1, ep, wv_cons]
  have hn : (2 ^ 64) ^ P.n = (2 ^ 64) ^ qs.length * 2 ^ 64 := by rw [← lqs, pow_succ (2 ^ 64)]
  rw [pow_succ (2 ^ 64) P.n, hn]
  generalize (2 : Nat) ^ 64 = W at *
  linear_combination W * e1 + W * W ^ qs.length * e2 + e0

theorem ciosFirst_spec (h : P.Good) {x : List Nat} (hx : x.length = P.n) (wx : Words x) {y0 : Nat}
    (hy : y0 < 2 ^ 64) :
    ∃ m < 2 ^ 64, 2 ^ 64 * (wv (P.ciosFirst x y0).1 + (2 ^ 64) ^ P.n * (P.ciosFirst x y0).2) =
        wv x * y0 + m * P.p ∧
      (P.ciosFirst x y0).1.length = P.n ∧ Words (P.ciosFirst x y0).1 ∧ (P.ciosFirst x y0).2 < 2 ^ 64 := by
  rcases x with _ | ⟨x0, xs⟩
  · have := h.two_le; simp at hx; omega
  have lxs : xs.length + 1 = P.n := by simpa using hx
  simp only [ciosFirst, List.headD_cons, List.tail_cons]
  have e0 := mul64_spec y0 x0
  obtain ⟨b0, b0'⟩ := mul64_lt hy wx.head
  generalize mul64 y0 x0 = u at *
  obtain ⟨e1, l1, w1, b1⟩ := madd1Row_spec hy xs u.1 wx.tail' b0
  generalize madd1Row y0 xs u.1 = r at *
  have e2 := add64_spec 0 r.2 0
  have b2 := add64_lt 0 r.2 0
  have c2 := add64_carry (show 0 < 2 ^ 64 by norm_num) b1 (show 0 ≤ 1 by omega)
  generalize add64 0 r.2 0 = a at *
  obtain ⟨m, hm, e, l, w, b⟩ := ciosReduce_spec h (t := u.2 :: r.1) (by simp [l1, lxs]) (w1.cons b0') b2 c2
  refine ⟨m, hm, ?_, l, w, b⟩
  rw [e, wv_cons, wv_cons]
  have hn : (2 ^ 64) ^ P.n = (2 ^ 64) ^ xs.length * 2 ^ 64 := by rw [← lxs, pow_succ (2 ^ 64)]
  rw [pow_succ (2 ^ 64) P.n, hn]
  generalize (2 : Nat) ^ 64 = W at *
  linear_combination e0 + W * e1 + W * W ^ xs.length * e2

theorem ciosNext_spec (h : P.Good) {x : List Nat} (hx : x.length = P.n) (wx : Words x)
    {s : List Nat × Nat} (hs : s.1.length = P.n) (ws : Words s.1) (bs : s.2 < 2 ^ 64) {y0 : Nat}
    (hy : y0 < 2 ^ 64) :
    ∃ m < 2 ^ 64, 2 ^ 64 * (wv (P.ciosNext x s y0).1 + (2 ^ 64) ^ P.n * (P.ciosNext x s y0).2) =
        wv s.1 + (2 ^ 64) ^ P.n * s.2 + wv x * y0 + m * P.p ∧
      (P.ciosNext x s y0).1.length = P.n ∧ Words (P.ciosNext x s y0).1 ∧
      (P.ciosNext x s y0).2 < 2 ^ 64 := by
  obtain ⟨t, top⟩ := s
  simp only at hs ws bs
  rcases x with _ | ⟨x0, xs⟩
  · have := h.two_le; simp at hx; omega
  rcases t with _ | ⟨t0, ts⟩
  · have := h.two_le; simp at hs; omega
  have lxs : xs.length + 1 = P.n := by simpa using hx
  have lts : ts.length + 1 = P.n := by simpa using hs
  simp only [ciosNext, List.headD_cons, List.tail_cons]
  obtain ⟨e0, b0, b0'⟩ := madd1_spec hy wx.head ws.head
  generalize madd1 y0 x0 t0 = u at *
  obtain ⟨e1, l1, w1, b1⟩ := madd2Row_spec hy xs ts u.1 wx.tail' ws.tail' (by omega) b0
  generalize madd2Row y0 xs ts u.1 = r at *
  have e2 := add64_spec top r.2 0
  have b2 := add64_lt top r.2 0
  have c2 := add64_carry bs b1 (show 0 ≤ 1 by omega)
  generalize add64 top r.2 0 = a at *
  obtain ⟨m, hm, e, l, w, b⟩ := ciosReduce_spec h (t := u.2 :: r.1) (by simp [l1, lxs]) (w1.cons b0') b2 c2
  refine ⟨m, hm, ?_, l, w, b⟩
  rw [e, wv_cons, wv_cons, wv_cons]
  have hn : (2 ^ 64) ^ P.n = (2 ^ 64) ^ xs.length * 2 ^ 64 := by rw [← lxs, pow_succ (2 ^ 64)]
  rw [pow_succ (2 ^ 64) P.n, hn]
  generalize (2 : Nat) ^ 64 = W at *
  linear_combination e0 + W * e1 + W * W ^ xs.length * e2

theorem ciosLoop_spec (h : P.Good) {x : List Nat} (hx : x.length = P.n) (wx : Words x) :
    ∀ (ys : List Nat) (s : List Nat × Nat), Words ys → s.1.length = P.n → Words s.1 → s.2 < 2 ^ 64 →
      ∃ M < (2 ^ 64) ^ ys.length, (2 ^ 64) ^ ys.length * (wv (ys.foldl (P.ciosNext x) s).1 +
          (2 ^ 64) ^ P.n * (ys.foldl (P.ciosNext x) s).2) =
          wv s.1 + (2 ^ 64) ^ P.n * s.2 + wv x * wv ys + M * P.p ∧
        (ys.foldl (P.ciosNext x) s).1.length = P.n ∧ Words (ys.foldl (P.ciosNext x) s).1
  | [], s, _, hs, ws, _ => ⟨0, by simp, by simp, hs, ws⟩
  | y :: ys, s, hy, hs, ws, bs => by
    obtain ⟨m, hm, e, l, w, b⟩ := ciosNext_spec h hx wx hs ws bs hy.head
    obtain ⟨M, hM, e', l', w'⟩ := ciosLoop_spec h hx wx ys (P.ciosNext x s y) hy.tail' l w b
    refine ⟨m + 2 ^ 64 * M, ?_, ?_, l', w'⟩
    · rw [List.length_cons, pow_succ (2 ^ 64)]
      have : M + 1 ≤ (2 ^ 64) ^ ys.length := hM
      nlinarith
    · rw [List.foldl_cons, List.length_cons, pow_succ (2 ^ 64), wv_cons]
      generalize (2 : Nat) ^ 64 = W at *
      linear_combination e + W * e'

/-- The end of `Mul`: one subtraction suffices. -/
theorem ciosEnd_spec (h : P.Good) {r : List Nat × Nat} (l : r.1.length = P.n) (w : Words r.1)
    {X Y M : Nat} (hX : X < (2 ^ 64) ^ P.n) (hY : Y < P.p) (hM : M < (2 ^ 64) ^ P.n)
    (hT : (2 ^ 64) ^ P.n * (wv r.1 + (2 ^ 64) ^ P.n * r.2) = X * Y + M * P.p) :
    (∃ T, (2 ^ 64) ^ P.n * T = X * Y + M * P.p ∧
        wv (if r.2 != 0 then (subChain r.1 P.q 0).1 else P.reduce r.1) = T % P.p) ∧
      (if r.2 != 0 then (subChain r.1 P.q 0).1 else P.reduce r.1).length = P.n ∧
      Words (if r.2 != 0 then (subChain r.1 P.q 0).1 else P.reduce r.1) := by
  have hT2 : wv r.1 + (2 ^ 64) ^ P.n * r.2 < 2 * P.p := by
    have h1 : X * Y < (2 ^ 64) ^ P.n * P.p := Nat.mul_lt_mul'' hX hY
    have h2 : M * P.p < (2 ^ 64) ^ P.n * P.p := Nat.mul_lt_mul_of_pos_right hM h.pos
    have : (2 ^ 64) ^ P.n * (wv r.1 + (2 ^ 64) ^ P.n * r.2) < (2 ^ 64) ^ P.n * (2 * P.p) := by
      rw [hT]
      calc _ < (2 ^ 64) ^ P.n * P.p + (2 ^ 64) ^ P.n * P.p := Nat.add_lt_add h1 h2
        _ = _ := by rw [Nat.two_mul, Nat.mul_add]
    exact Nat.lt_of_mul_lt_mul_left this
  have hp := p_lt h
  by_cases hc : r.2 = 0
  · have hc' : (r.2 != 0) = false := by simp [hc]
    rw [hc']
    simp only [Bool.false_eq_true, if_false]
    rw [hc, Nat.mul_zero, Nat.add_zero] at hT hT2
    obtain ⟨e1, l1, w1⟩ := reduce_spec h l w hT2
    exact ⟨⟨_, hT, e1⟩, l1, w1⟩
  · have hc' : (r.2 != 0) = true := by simp [hc]
    rw [hc']
    simp only [if_true]
    have hge : P.p ≤ wv r.1 + (2 ^ 64) ^ P.n * r.2 := by
      have h1 : (2 ^ 64) ^ P.n * 1 ≤ (2 ^ 64) ^ P.n * r.2 := Nat.mul_le_mul_left _ (by omega)
      rw [Nat.mul_one] at h1
      exact Nat.le_trans (Nat.le_of_lt hp) (Nat.le_trans h1 (Nat.le_add_left _ _))
    obtain ⟨e1, l1, w1⟩ := subtract_spec h l w hge hT2
    refine ⟨⟨_, hT, ?_⟩, l1, w1⟩
    rw [← e1, Nat.add_mod_right, Nat.mod_eq_of_lt (by omega)]

/-- What the rounds of `Mul` compute, in both variants: a number `T` with `2^(64 n) T = x y + M p` and
`M < 2^(64 n)`. -/
theorem mulCios_spec (h : P.Good) {x y : List Nat} (hx : x.length = P.n) (wx : Words x)
    (hy : y.length = P.n) (wy : Words y) (hlt : wv y < P.p) :
    (∃ T M, (2 ^ 64) ^ P.n * T = wv x * wv y + M * P.p ∧ wv (P.mulCios x y) = T % P.p) ∧
      (P.mulCios x y).length = P.n ∧ Words (P.mulCios x y) := by
  rcases y with _ | ⟨y0, ys⟩
  · have := h.two_le; simp at hy; omega
  have lys : ys.length + 1 = P.n := by simpa using hy
  obtain ⟨m, hm, e, l, w, b⟩ := ciosFirst_spec h hx wx wy.head
  obtain ⟨M, hM, e', l', w'⟩ := ciosLoop_spec h hx wx ys (P.ciosFirst x y0) wy.tail' l w b
  have hxlt := wv_lt wx
  rw [hx] at hxlt
  have hn : (2 ^ 64) ^ P.n = (2 ^ 64) ^ ys.length * 2 ^ 64 := by rw [← lys, pow_succ (2 ^ 64)]
  have hM' : m + 2 ^ 64 * M < (2 ^ 64) ^ P.n := by
    rw [hn]
    generalize (2 : Nat) ^ 64 = W at *
    have h1 : (M + 1) * W ≤ W ^ ys.length * W := Nat.mul_le_mul_right _ hM
    rw [Nat.add_mul, Nat.one_mul, Nat.mul_comm] at h1
    omega
  have hT : (2 ^ 64) ^ P.n * (wv (ys.foldl (P.ciosNext x) (P.ciosFirst x y0)).1 + (2 ^ 64) ^ P.n *
      (ys.foldl (P.ciosNext x) (P.ciosFirst x y0)).2) =
      wv x * wv (y0 :: ys) + (m + 2 ^ 64 * M) * P.p := by
    rw [wv_cons]
    generalize wv (ys.foldl (P.ciosNext x) (P.ciosFirst x y0)).1 + (2 ^ 64) ^ P.n *
      (ys.foldl (P.ciosNext x) (P.ciosFirst x y0)).2 = R at *
    generalize wv (P.ciosFirst x y0).1 + (2 ^ 64) ^ P.n * (P.ciosFirst x y0).2 = R0 at *
    rw [hn]
    generalize (2 : Nat) ^ 64 = W at *
    linear_combination e + W * e'
  obtain ⟨⟨T, hT', e1⟩, l1, w1⟩ := ciosEnd_spec h l' w' hxlt hlt hM' hT
  exact ⟨⟨T, _, hT', e1⟩, l1, w1⟩

end FieldPkg

end Ringo
