import Verif.Proof.FieldMul

/-! # Montgomery multiplication: the numbers computed, continued -/

namespace Ringo

namespace FieldPkg

variable {P : FieldPkg}

/-! ### The variant without -/

/-- A nonempty list is its beginning and its last element. -/
theorem concat_of_length {l : List Nat} {k : Nat} (h : l.length = k + 1) :
    ∃ l' a, l = l' ++ [a] ∧ l'.length = k := by
  rcases List.eq_nil_or_concat l with rfl | ⟨l', a, rfl⟩
  · simp at h
  · exact ⟨l', a, by simp, by simpa using h⟩

/-- A row of products added to `t`, in terms of numbers. -/
theorem ncRow_spec {v : Nat} (hv : v < 2 ^ 64) {y t : List Nat} (wy : Words y) (wt : Words t) {k : Nat}
    (hy : y.length = k + 1) (ht : t.length = k + 1) {c2 : Nat} {T : Nat}
    (hT : wv t + (2 ^ 64) ^ (k + 1) * c2 + 2 ^ 64 * wv (hiRow v y) = T) (hlt : T < (2 ^ 64) ^ (k + 2)) :
    let ts := addChain (hiRow v y).dropLast t.tail 0
    wv (t.headD 0 :: ts.1) + (2 ^ 64) ^ (k + 1) * (add64 ((hiRow v y).getLastD 0) c2 ts.2).1 = T ∧
      (t.headD 0 :: ts.1).length = k + 1 ∧ Words (t.headD 0 :: ts.1) := by
  intro ts
  rcases t with _ | ⟨t0, t'⟩
  · simp at ht
  have lt' : t'.length = k := by simpa using ht
  obtain ⟨u', ul, hu, lu⟩ := concat_of_length (l := hiRow v y) (k := k) (by simpa using hy)
  have wu := hiRow_words hv wy
  have hts : ts = addChain u' t' 0 := by simp [ts, hu]
  rw [hu] at hT wu ⊢
  obtain ⟨e, l, w, b⟩ := addChain_spec u' t' 0 wu.of_append_left wt.tail' (by omega) (by omega)
  rw [← hts] at e l w b
  have hlast : (u' ++ [ul]).getLastD 0 = ul := by simp
  rw [hlast]
  simp only [List.headD_cons]
  refine ⟨?_, by simp [l, lu], w.cons wt.head⟩
  rw [wv_concat, lu, wv_cons] at hT
  rw [wv_cons]
  rw [lu] at e
  have hs := add64_spec ul c2 ts.2
  have hX : t0 + 2 ^ 64 * wv ts.1 + (2 ^ 64) ^ (k + 1) * (ul + c2 + ts.2) = T := by
    rw [← hT, pow_succ (2 ^ 64)]
    generalize (2 : Nat) ^ 64 = W at *
    linear_combination W * e
  have hz : (add64 ul c2 ts.2).2 = 0 := by
    by_contra hne
    have h1 : (2 ^ 64) ^ (k + 1) * (2 ^ 64) ≤ (2 ^ 64) ^ (k + 1) * (ul + c2 + ts.2) :=
      Nat.mul_le_mul_left _ (by omega)
    have h2 : (2 ^ 64) ^ (k + 2) = (2 ^ 64) ^ (k + 1) * 2 ^ 64 := pow_succ (2 ^ 64) _
    omega
  rw [hz, Nat.mul_zero, Nat.add_zero] at hs
  rw [hs]
  exact hX

theorem ncFirst_spec {v : Nat} (hv : v < 2 ^ 64) {y : List Nat} (wy : Words y) {k : Nat}
    (hy : y.length = k + 1) :
    wv (ncFirst v y).1 + (2 ^ 64) ^ (k + 1) * (ncFirst v y).2 = v * wv y ∧
      (ncFirst v y).1.length = k + 1 ∧ Words (ncFirst v y).1 := by
  have hb : v * wv y < (2 ^ 64) ^ (k + 2) := by
    have := wv_lt wy
    rw [hy] at this
    rw [show k + 2 = (k + 1) + 1 from rfl, pow_succ (2 ^ 64) (k + 1), Nat.mul_comm]
    exact Nat.mul_lt_mul'' this hv
  have := ncRow_spec hv wy (loRow_words (v := v) y) hy (by simpa using hy) (c2 := 0) (T := v * wv y)
    (by rw [Nat.mul_zero, Nat.add_zero]; exact hiRow_loRow v y) hb
  exact this

theorem ncNext_spec {v : Nat} (hv : v < 2 ^ 64) {y t : List Nat} (wy : Words y) (wt : Words t) {k : Nat}
    (hy : y.length = k + 1) (ht : t.length = k + 1) :
    wv (ncNext v y t).1 + (2 ^ 64) ^ (k + 1) * (ncNext v y t).2 = v * wv y + wv t ∧
      (ncNext v y t).1.length = k + 1 ∧ Words (ncNext v y t).1 := by
  have hb : v * wv y + wv t < (2 ^ 64) ^ (k + 2) := by
    have h1 := wv_lt wy
    rw [hy] at h1
    have h2 := wv_lt wt
    rw [ht] at h2
    have h3 : v * wv y ≤ (2 ^ 64 - 1) * wv y := Nat.mul_le_mul_right _ (by omega)
    rw [pow_succ (2 ^ 64)]
    generalize (2 ^ 64) ^ (k + 1) = B at *
    omega
  obtain ⟨e, l, w, b⟩ := addChain_spec (loRow v y) t 0 (loRow_words y) wt (by simp [hy, ht]) (by omega)
  rw [loRow_length, hy] at e l
  have hc : (add64 0 0 (addChain (loRow v y) t 0).2).1 = (addChain (loRow v y) t 0).2 := by
    simp only [add64]; omega
  have := ncRow_spec hv wy w hy l (c2 := (addChain (loRow v y) t 0).2) (T := v * wv y + wv t)
    (by have := hiRow_loRow v y; omega) hb
  simp only [ncNext, hc]
  exact this

theorem ncReduce_spec (h : P.Good) {t : List Nat} (ht : t.length = P.n) (wt : Words t) {c2 : Nat} {B : Nat}
    (hB : B ≤ (2 ^ 64) ^ P.n)
    (hlt : ∀ m < 2 ^ 64, wv t + (2 ^ 64) ^ P.n * c2 + m * P.p < 2 ^ 64 * B) :
    ∃ m < 2 ^ 64, 2 ^ 64 * wv (P.ncReduce (t, c2)) = wv t + (2 ^ 64) ^ P.n * c2 + m * P.p ∧
      (P.ncReduce (t, c2)).length = P.n ∧ Words (P.ncReduce (t, c2)) := by
  obtain ⟨q0, qs, hq, hq0, wqs, lqs, ep⟩ := q_split h
  obtain ⟨k, hk⟩ : ∃ k, P.n = k + 2 := ⟨P.n - 2, by have := h.two_le; omega⟩
  rcases t with _ | ⟨t0, t'⟩
  · rw [hk] at ht; simp at ht
  obtain ⟨t'', tl, rfl, lt''⟩ := concat_of_length (l := t') (k := k) (by simp at ht; omega)
  refine ⟨P.qInvNeg * t0 % 2 ^ 64, Nat.mod_lt _ (by norm_num), ?_⟩
  have hz := low_zero h ep t0
  rw [Nat.mul_comm t0] at hz
  have hmlt : P.qInvNeg * t0 % 2 ^ 64 < 2 ^ 64 := Nat.mod_lt _ (by norm_num)
  have hbound := hlt _ hmlt
  simp only [ncReduce, List.headD_cons, List.tail_cons]
  generalize P.qInvNeg * t0 % 2 ^ 64 = m at *
  have wq : Words P.q := h.q_words
  have eqq := hiRow_loRow m P.q
  have wu := hiRow_words hmlt wq
  have wl := loRow_words (v := m) P.q
  obtain ⟨u', ul, hu, lu⟩ := concat_of_length (l := hiRow m P.q) (k := k + 1) (by
    rw [hiRow_length]; exact hk)
  have hl : loRow m P.q = (mul64 m q0).2 :: loRow m qs := by rw [hq]; rfl
  rw [hu] at eqq wu ⊢
  rw [hl] at eqq wl ⊢
  have elast : ((t0 :: (t'' ++ [tl])).getLastD 0) = tl := by
    rw [← List.cons_append, List.getLastD_concat]
  have elu : (u' ++ [ul]).getLastD 0 = ul := List.getLastD_concat ..
  have edl : (t'' ++ [tl]).dropLast = t'' := by simp
  have edu : (u' ++ [ul]).dropLast = u' := by simp
  rw [elast, elu, edl, edu]
  simp only [List.headD_cons, List.tail_cons]
  -- the low word
  have hm0 := mul64_spec m q0
  have ea := add64_spec t0 (mul64 m q0).2 0
  have ca := add64_carry wt.head wl.head (show 0 ≤ 1 by omega)
  have za : (add64 t0 (mul64 m q0).2 0).1 = 0 := by
    have e1 : (m * q0 + t0) % 2 ^ 64 = (t0 + (mul64 m q0).2) % 2 ^ 64 := by
      rw [← hm0, Nat.add_assoc, Nat.add_comm, Nat.add_mul_mod_self_right, Nat.add_comm]
    simp only [add64, Nat.add_zero]
    rw [← e1, hz]
  rw [za, Nat.zero_add] at ea
  generalize (add64 t0 (mul64 m q0).2 0).2 = c0 at *
  -- the first row
  have wt' : Words (t'' ++ [0]) :=
    (wt.tail'.of_append_left).append (Words.nil.cons (by norm_num))
  obtain ⟨e1, l1, w1, b1⟩ := addChain_spec (t'' ++ [0]) (loRow m qs) c0 wt' wl.tail'
    (by simp [lt'']; omega) ca
  generalize addChain (t'' ++ [0]) (loRow m qs) c0 = r at *
  have lr : r.1.length = k + 1 := by rw [l1]; simp [lt'']
  have e2 := add64_spec ul 0 r.2
  generalize add64 ul 0 r.2 = uL at *
  -- the second row
  obtain ⟨e3, l3, w3, b3⟩ := addChain_spec u' r.1 0 wu.of_append_left w1 (by omega) (by omega)
  generalize addChain u' r.1 0 = r2 at *
  have e4 := add64_spec c2 0 r2.2
  generalize add64 c2 0 r2.2 = c2' at *
  obtain ⟨r', rl, hr, lr'⟩ := concat_of_length (l := r2.1) (k := k) (by rw [l3, lu])
  have wr := w3
  rw [hr] at e3 wr ⊢
  have erl : (r' ++ [rl]).getLastD 0 = rl := List.getLastD_concat ..
  have edr : (r' ++ [rl]).dropLast = r' := by simp
  rw [erl, edr]
  have e5 := add64_spec tl rl 0
  have b5 := add64_lt tl rl 0
  generalize add64 tl rl 0 = a at *
  have e6 := add64_spec uL.1 c2'.1 a.2
  have b6 := add64_lt uL.1 c2'.1 a.2
  generalize add64 uL.1 c2'.1 a.2 = b at *
  have hlen : (r' ++ [a.1, b.1]).length = P.n := by simp [lr', hk]
  have hW : Words (r' ++ [a.1, b.1]) :=
    wr.of_append_left.append ((Words.nil.cons b6).cons b5)
  refine ⟨?_, hlen, hW⟩
  -- put together
  have hres : wv (r' ++ [a.1, b.1]) = wv r' + (2 ^ 64) ^ k * (a.1 + 2 ^ 64 * b.1) := by
    rw [wv_append, lr', wv_cons, wv_cons, wv_nil]; ring
  have hqv : wv P.q = P.p := rfl
  rw [hqv] at eqq
  rw [wv_concat, lt'', List.length_append, List.length_singleton, lt''] at e1
  rw [wv_concat, lr', lu] at e3
  rw [wv_concat, lu, wv_cons] at eqq
  rw [wv_cons, wv_concat, lt'', hk] at hbound
  rw [wv_cons, wv_concat, lt'', hk]
  have key : 2 ^ 64 * (wv (r' ++ [a.1, b.1]) + (2 ^ 64) ^ (k + 2) * (uL.2 + c2'.2 + b.2)) =
      t0 + 2 ^ 64 * (wv t'' + (2 ^ 64) ^ k * tl) + (2 ^ 64) ^ (k + 2) * c2 + m * P.p := by
    rw [hres]
    have p1 : (2 ^ 64) ^ (k + 1) = (2 ^ 64) ^ k * 2 ^ 64 := pow_succ (2 ^ 64) _
    have p2 : (2 ^ 64) ^ (k + 2) = (2 ^ 64) ^ k * 2 ^ 64 * 2 ^ 64 := by rw [pow_succ (2 ^ 64), pow_succ (2 ^ 64)]
    rw [p1] at e1 e3 eqq
    rw [p2]
    generalize (2 : Nat) ^ 64 = W at *
    linear_combination W * e1 + W * e3 + eqq + ea + W * W ^ k * e5
      + W ^ k * W * W * (e2 + e4 + e6)
  have hz' : uL.2 + c2'.2 + b.2 = 0 := by
    by_contra hne
    have h1 : (2 ^ 64) ^ (k + 2) * 1 ≤ (2 ^ 64) ^ (k + 2) * (uL.2 + c2'.2 + b.2) :=
      Nat.mul_le_mul_left _ (by omega)
    rw [hk] at hB
    rw [← key] at hbound
    have h2 := Nat.lt_of_mul_lt_mul_left hbound
    omega
  rw [hz', Nat.mul_zero, Nat.add_zero] at key
  exact key

theorem ncLoop_spec (h : P.Good) (hs : 2 * P.p ≤ (2 ^ 64) ^ P.n) {y : List Nat} (hy : y.length = P.n)
    (wy : Words y) (hlt : wv y < P.p) :
    ∀ (xs : List Nat) (t : List Nat), Words xs → t.length = P.n → Words t → wv t < wv y + P.p →
      ∃ M < (2 ^ 64) ^ xs.length, (2 ^ 64) ^ xs.length *
          wv (xs.foldl (fun t v => P.ncReduce (ncNext v y t)) t) = wv t + wv xs * wv y + M * P.p ∧
        (xs.foldl (fun t v => P.ncReduce (ncNext v y t)) t).length = P.n ∧
        Words (xs.foldl (fun t v => P.ncReduce (ncNext v y t)) t)
  | [], t, _, ht, wt, _ => ⟨0, by simp, by simp, ht, wt⟩
  | v :: xs, t, hx, ht, wt, bt => by
    obtain ⟨k, hk⟩ : ∃ k, P.n = k + 1 := ⟨P.n - 1, by have := h.two_le; omega⟩
    obtain ⟨e0, l0, w0⟩ := ncNext_spec hx.head wy wt (k := k) (by omega) (by omega)
    rw [← hk] at e0 l0
    have hv := hx.head
    have hbound : ∀ m < 2 ^ 64, wv (ncNext v y t).1 + (2 ^ 64) ^ P.n * (ncNext v y t).2 + m * P.p <
        2 ^ 64 * (wv y + P.p) := by
      intro m hm
      rw [e0]
      have h1 : v * wv y ≤ (2 ^ 64 - 1) * wv y := Nat.mul_le_mul_right _ (by omega)
      have h2 : m * P.p ≤ (2 ^ 64 - 1) * P.p := Nat.mul_le_mul_right _ (by omega)
      omega
    obtain ⟨m, hm, e, l, w⟩ := ncReduce_spec h l0 w0 (c2 := (ncNext v y t).2) (B := wv y + P.p)
      (by omega) hbound
    have hb := hbound m hm
    rw [← e] at hb
    have hb' := Nat.lt_of_mul_lt_mul_left hb
    obtain ⟨M, hM, e', l', w'⟩ := ncLoop_spec h hs hy wy hlt xs (P.ncReduce (ncNext v y t)) hx.tail' l w hb'
    refine ⟨m + 2 ^ 64 * M, ?_, ?_, l', w'⟩
    · rw [List.length_cons, pow_succ (2 ^ 64) xs.length]
      generalize (2 : Nat) ^ 64 = W at *
      have h1 : (M + 1) * W ≤ W ^ xs.length * W := Nat.mul_le_mul_right _ hM
      rw [Nat.add_mul, Nat.one_mul, Nat.mul_comm] at h1
      omega
    · rw [List.foldl_cons, List.length_cons, pow_succ (2 ^ 64), wv_cons]
      have e2 : 2 ^ 64 * wv (P.ncReduce (ncNext v y t)) = v * wv y + wv t + m * P.p := by
        rw [← e0]; exact e
      generalize (2 : Nat) ^ 64 = W at *
      linear_combination e2 + W * e'

theorem mulNoCarry_spec (h : P.Good) (hs : 2 * P.p ≤ (2 ^ 64) ^ P.n) {x y : List Nat}
    (hx : x.length = P.n) (wx : Words x) (hy : y.length = P.n) (wy : Words y) (hlt : wv y < P.p) :
    (∃ T M, (2 ^ 64) ^ P.n * T = wv x * wv y + M * P.p ∧ wv (P.mulNoCarry x y) = T % P.p) ∧
      (P.mulNoCarry x y).length = P.n ∧ Words (P.mulNoCarry x y) := by
  rcases x with _ | ⟨x0, xs⟩
  · have := h.two_le; simp at hx; omega
  have lxs : xs.length + 1 = P.n := by simpa using hx
  simp only [mulNoCarry, List.headD_cons, List.tail_cons]
  obtain ⟨e0, l0, w0⟩ := ncFirst_spec wx.head wy (k := xs.length) (by omega)
  rw [lxs] at e0 l0
  have hx0 := wx.head
  have hbound : ∀ m < 2 ^ 64, wv (ncFirst x0 y).1 + (2 ^ 64) ^ P.n * (ncFirst x0 y).2 + m * P.p <
      2 ^ 64 * (wv y + P.p) := by
    intro m hm
    rw [e0]
    have h1 : x0 * wv y ≤ (2 ^ 64 - 1) * wv y := Nat.mul_le_mul_right _ (by omega)
    have h2 : m * P.p ≤ (2 ^ 64 - 1) * P.p := Nat.mul_le_mul_right _ (by omega)
    have := h.pos
    omega
  obtain ⟨m, hm, e, l, w⟩ := ncReduce_spec h l0 w0 (c2 := (ncFirst x0 y).2) (B := wv y + P.p)
    (by omega) hbound
  have hb := hbound m hm
  rw [← e] at hb
  have hb' := Nat.lt_of_mul_lt_mul_left hb
  obtain ⟨M, hM, e', l', w'⟩ := ncLoop_spec h hs hy wy hlt xs (P.ncReduce (ncFirst x0 y)) wx.tail' l w hb'
  have e2 : 2 ^ 64 * wv (P.ncReduce (ncFirst x0 y)) = x0 * wv y + m * P.p := by
    rw [← e0]; exact e
  generalize xs.foldl (fun t v => P.ncReduce (ncNext v y t)) (P.ncReduce (ncFirst x0 y)) = r at *
  have hxlt := wv_lt wx
  rw [hx] at hxlt
  have hn : (2 ^ 64) ^ P.n = (2 ^ 64) ^ xs.length * 2 ^ 64 := by rw [← lxs, pow_succ (2 ^ 64)]
  have hM' : m + 2 ^ 64 * M < (2 ^ 64) ^ P.n := by
    rw [hn]
    generalize (2 : Nat) ^ 64 = W at *
    have h1 : (M + 1) * W ≤ W ^ xs.length * W := Nat.mul_le_mul_right _ hM
    rw [Nat.add_mul, Nat.one_mul, Nat.mul_comm] at h1
    omega
  have hT : (2 ^ 64) ^ P.n * wv r = wv (x0 :: xs) * wv y + (m + 2 ^ 64 * M) * P.p := by
    rw [hn, wv_cons]
    generalize (2 : Nat) ^ 64 = W at *
    linear_combination e2 + W * e'
  have hT2 : wv r < 2 * P.p := by
    have h1 : wv (x0 :: xs) * wv y < (2 ^ 64) ^ P.n * P.p := Nat.mul_lt_mul'' hxlt hlt
    have h2 : (m + 2 ^ 64 * M) * P.p < (2 ^ 64) ^ P.n * P.p := Nat.mul_lt_mul_of_pos_right hM' h.pos
    have : (2 ^ 64) ^ P.n * wv r < (2 ^ 64) ^ P.n * (2 * P.p) := by
      rw [hT]
      calc _ < (2 ^ 64) ^ P.n * P.p + (2 ^ 64) ^ P.n * P.p := Nat.add_lt_add h1 h2
        _ = _ := by ring
    exact Nat.lt_of_mul_lt_mul_left this
  obtain ⟨e1, l1, w1⟩ := reduce_spec h l' w' hT2
  exact ⟨⟨_, _, hT, e1⟩, l1, w1⟩

theorem ncRounds_length (h : P.Good) (hs : 2 * P.p ≤ (2 ^ 64) ^ P.n) {x y : List Nat}
    (hx : x.length = P.n) (wx : Words x) (hy : y.length = P.n) (wy : Words y) (hlt : wv y < P.p) :
    (x.tail.foldl (fun t v => P.ncReduce (ncNext v y t)) (P.ncReduce (ncFirst (x.headD 0) y))).length =
      P.n := by
  rcases x with _ | ⟨x0, xs⟩
  · have := h.two_le; simp at hx; omega
  have lxs : xs.length + 1 = P.n := by simpa using hx
  simp only [List.headD_cons, List.tail_cons]
  obtain ⟨e0, l0, w0⟩ := ncFirst_spec wx.head wy (k := xs.length) (by omega)
  rw [lxs] at e0 l0
  have hx0 := wx.head
  have hbound : ∀ m < 2 ^ 64, wv (ncFirst x0 y).1 + (2 ^ 64) ^ P.n * (ncFirst x0 y).2 + m * P.p <
      2 ^ 64 * (wv y + P.p) := by
    intro m hm
    rw [e0]
    have h1 : x0 * wv y ≤ (2 ^ 64 - 1) * wv y := Nat.mul_le_mul_right _ (by omega)
    have h2 : m * P.p ≤ (2 ^ 64 - 1) * P.p := Nat.mul_le_mul_right _ (by omega)
    have := h.pos
    omega
  obtain ⟨m, hm, e, l, w⟩ := ncReduce_spec h l0 w0 (c2 := (ncFirst x0 y).2) (B := wv y + P.p)
    (by omega) hbound
  have hb := hbound m hm
  rw [← e] at hb
  have hb' := Nat.lt_of_mul_lt_mul_left hb
  obtain ⟨M, hM, e', l', w'⟩ := ncLoop_spec h hs hy wy hlt xs (P.ncReduce (ncFirst x0 y)) wx.tail' l w hb'
  exact l'

/-- `Mul`, in terms of numbers. -/
theorem mul_num (h : P.Good) {x y : List Nat} (hx : x.length = P.n) (wx : Words x)
    (hy : y.length = P.n) (wy : Words y) (hlt : wv y < P.p) :
    (∃ T M, (2 ^ 64) ^ P.n * T = wv x * wv y + M * P.p ∧ wv (P.mul x y) = T % P.p) ∧
      (P.mul x y).length = P.n ∧ Words (P.mul x y) := by
  unfold mul
  by_cases hc : P.cios = true
  · rw [hc]; exact mulCios_spec h hx wx hy wy hlt
  · have hc' : P.cios = false := by simpa using hc
    rw [hc']
    exact mulNoCarry_spec h (h.spare_mul hc') hx wx hy wy hlt

/-! ### Out of Montgomery form -/

theorem fromMontStep_spec (h : P.Good) {z : List Nat} (hz : z.length = P.n) (wz : Words z) :
    ∃ m < 2 ^ 64, 2 ^ 64 * wv (P.fromMontStep z) = wv z + m * P.p ∧ (P.fromMontStep z).length = P.n ∧
      Words (P.fromMontStep z) := by
  obtain ⟨q0, qs, hq, hq0, wqs, lqs, ep⟩ := q_split h
  rcases z with _ | ⟨t0, ts⟩
  · have := h.two_le; simp at hz; omega
  have lts : ts.length + 1 = P.n := by simpa using hz
  refine ⟨t0 * P.qInvNeg % 2 ^ 64, Nat.mod_lt _ (by norm_num), ?_⟩
  simp only [fromMontStep, hq, List.headD_cons, List.tail_cons]
  have hz := low_zero h ep t0
  have hmlt : t0 * P.qInvNeg % 2 ^ 64 < 2 ^ 64 := Nat.mod_lt _ (by norm_num)
  generalize t0 * P.qInvNeg % 2 ^ 64 = m at *
  obtain ⟨e0, l0⟩ := madd0_spec hmlt hq0 wz.head hz
  obtain ⟨e1, l1, w1, b1⟩ := madd2Row_spec hmlt qs ts (madd0 m q0 t0) wqs wz.tail' (by omega) l0
  generalize madd0 m q0 t0 = C0 at *
  generalize madd2Row m qs ts C0 = r at *
  refine ⟨?_, by simp [l1, lqs], w1.append (Words.nil.cons b1)⟩
  rw [wv_concat, l1, ep, wv_cons]
  generalize (2 : Nat) ^ 64 = W at *
  linear_combination W * e1 + e0

theorem fromMontLoop_spec (h : P.Good) : ∀ (k : Nat) (z : List Nat), z.length = P.n → Words z →
    ∃ M < (2 ^ 64) ^ k, (2 ^ 64) ^ k * wv (Nat.iterate P.fromMontStep k z) = wv z + M * P.p ∧
      (Nat.iterate P.fromMontStep k z).length = P.n ∧ Words (Nat.iterate P.fromMontStep k z)
  | 0, z, hz, wz => ⟨0, by simp, by simp, hz, wz⟩
  | k + 1, z, hz, wz => by
    obtain ⟨m, hm, e, l, w⟩ := fromMontStep_spec h hz wz
    obtain ⟨M, hM, e', l', w'⟩ := fromMontLoop_spec h k (P.fromMontStep z) l w
    refine ⟨m + 2 ^ 64 * M, ?_, ?_, l', w'⟩
    · rw [pow_succ (2 ^ 64) k]
      generalize (2 : Nat) ^ 64 = W at *
      have h1 : (M + 1) * W ≤ W ^ k * W := Nat.mul_le_mul_right _ hM
      rw [Nat.add_mul, Nat.one_mul, Nat.mul_comm] at h1
      omega
    · rw [Function.iterate_succ_apply, pow_succ (2 ^ 64) k]
      generalize (2 : Nat) ^ 64 = W at *
      linear_combination e + W * e'

theorem fromMont_num (h : P.Good) {z : List Nat} (hz : z.length = P.n) (wz : Words z) :
    (∃ T M, (2 ^ 64) ^ P.n * T = wv z + M * P.p ∧ wv (P.fromMont z) = T % P.p) ∧
      (P.fromMont z).length = P.n ∧ Words (P.fromMont z) := by
  obtain ⟨M, hM, e, l, w⟩ := fromMontLoop_spec h P.n z hz wz
  have hzlt := wv_lt wz
  rw [hz] at hzlt
  have hp2 := h.prime.two_le
  have hT2 : wv (Nat.iterate P.fromMontStep P.n z) < 2 * P.p := by
    have h2 : M * P.p < (2 ^ 64) ^ P.n * P.p := Nat.mul_lt_mul_of_pos_right hM h.pos
    have h3 : (2 ^ 64) ^ P.n * 1 ≤ (2 ^ 64) ^ P.n * P.p := Nat.mul_le_mul_left _ (by omega)
    have : (2 ^ 64) ^ P.n * wv (Nat.iterate P.fromMontStep P.n z) < (2 ^ 64) ^ P.n * (2 * P.p) := by
      rw [e]
      calc _ < (2 ^ 64) ^ P.n * P.p + (2 ^ 64) ^ P.n * P.p := by omega
        _ = _ := by ring
    exact Nat.lt_of_mul_lt_mul_left this
  obtain ⟨e1, l1, w1⟩ := reduce_spec h l w hT2
  exact ⟨⟨_, M, e, e1⟩, l1, w1⟩

end FieldPkg

end Ringo
