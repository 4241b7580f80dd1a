import Verif.Model.AsmArm64
import Verif.Proof.FieldMulNc
import Verif.Proof.AsmBfly
import Verif.Spec.Arm64
import Lean.Elab.Tactic.Basic

/-!
# The arm64 assembly: what the programs compute

The programs are straight, so what they leave in the memory is found by computation; it is a function of
lists of words, about which the rest is proved.
-/

namespace Ringo.Arm64

open FieldPkg (loRow hiRow)

variable {P : FieldPkg}

/-! ### Numbers -/

/-- A row of high words is added to `l`, one word up; `c` is the word above `l`. -/
def rowHi (l : List Nat) (c : Nat) (u : List Nat) : List Nat :=
  l.headD 0 :: (addChain (l.tail ++ [c]) u 0).1

/-- `MUL_WORD_N` before `DIVSHIFT`. -/
def rowN (v : Nat) (x t : List Nat) : List Nat :=
  let a := addChain t (loRow v x) 0
  rowHi a.1 (add64 0 0 a.2).1 (hiRow v x)

/-- `MUL_WORD_0` before `DIVSHIFT`. -/
def row0 (v : Nat) (x : List Nat) : List Nat := rowHi (loRow v x) 0 (hiRow v x)

/-- `DIVSHIFT`, with the multiplier. -/
def divN (qInv : Nat) (q w : List Nat) : List Nat :=
  let m := (mul64 qInv (w.headD 0)).2
  let a := addChain w.dropLast (loRow m q) 0
  (rowHi a.1 (add64 0 (w.getLastD 0) a.2).1 (hiRow m q)).tail

theorem rowHi_spec {l u : List Nat} {c n : Nat} (hl : l.length = n + 1) (wl : Words l) (hc : c < 2 ^ 64)
    (hu : u.length = n + 1) (wu : Words u) (hlt : wv l + (2 ^ 64) ^ (n + 1) * c + 2 ^ 64 * wv u < (2 ^ 64) ^ (n + 2)) :
    wv (rowHi l c u) = wv l + (2 ^ 64) ^ (n + 1) * c + 2 ^ 64 * wv u ∧ (rowHi l c u).length = n + 2 ∧
      Words (rowHi l c u) := by
  rcases l with _ | ⟨l0, ls⟩
  · simp at hl
  have lls : ls.length = n := by simpa using hl
  have wls := wl.tail'
  have w0 : l0 < 2 ^ 64 := wl.head
  obtain ⟨e, l, w, b⟩ := addChain_spec (ls ++ [c]) u 0 (wls.append (Words.nil.cons hc)) wu
    (by simp [lls, hu]) (by omega)
  rw [wv_concat, lls, List.length_append, List.length_singleton, lls, Nat.add_zero] at e
  rw [List.length_append, List.length_singleton, lls] at l
  simp only [rowHi, List.headD_cons, List.tail_cons]
  generalize addChain (ls ++ [c]) u 0 = r at *
  have key : wv (l0 :: r.1) + (2 ^ 64) ^ (n + 2) * r.2 =
      wv (l0 :: ls) + (2 ^ 64) ^ (n + 1) * c + 2 ^ 64 * wv u := by
    rw [wv_cons, wv_cons]
    have p1 : (2 ^ 64) ^ (n + 1) = (2 ^ 64) ^ n * 2 ^ 64 := pow_succ (2 ^ 64) _
    have p2 : (2 ^ 64) ^ (n + 2) = (2 ^ 64) ^ n * 2 ^ 64 * 2 ^ 64 := by rw [pow_succ (2 ^ 64), pow_succ (2 ^ 64)]
    rw [p1] at e ⊢
    rw [p2]
    generalize (2 : Nat) ^ 64 = W at *
    linear_combination W * e
  have h0 : r.2 = 0 := by
    rcases Nat.lt_or_ge r.2 1 with h | h
    · omega
    · have : (2 ^ 64) ^ (n + 2) * 1 ≤ (2 ^ 64) ^ (n + 2) * r.2 := Nat.mul_le_mul_left _ h
      omega
  rw [h0, Nat.mul_zero, Nat.add_zero] at key
  exact ⟨key, by simp [l], w.cons w0⟩

theorem rowN_spec {v n : Nat} {x t : List Nat} (hv : v < 2 ^ 64) (hx : x.length = n + 1) (wx : Words x)
    (ht : t.length = n + 1) (wt : Words t) :
    wv (rowN v x t) = wv t + v * wv x ∧ (rowN v x t).length = n + 2 ∧ Words (rowN v x t) := by
  obtain ⟨e, l, w, b⟩ := addChain_spec t (loRow v x) 0 wt (loRow_words x) (by rw [loRow_length, hx, ht]) (by omega)
  have hr := hiRow_loRow v x
  have lx := wv_lt wx
  have lt := wv_lt wt
  rw [hx] at lx
  rw [ht] at lt l e
  unfold rowN
  simp only
  generalize addChain t (loRow v x) 0 = a at *
  have hc : (add64 0 0 a.2).1 = a.2 := by
    simp only [add64, Nat.zero_add]; exact Nat.mod_eq_of_lt (by omega)
  have hb : v * wv x ≤ (2 ^ 64 - 1) * ((2 ^ 64) ^ (n + 1) - 1) := Nat.mul_le_mul (by omega) (by omega)
  have key : wv a.1 + (2 ^ 64) ^ (n + 1) * a.2 + 2 ^ 64 * wv (hiRow v x) = wv t + v * wv x := by omega
  rw [hc]
  obtain ⟨e2, l2, w2⟩ := rowHi_spec (n := n) (c := a.2) l w (by omega) (by rw [hiRow_length, hx]) (hiRow_words hv wx) (by
    rw [key, pow_succ (2 ^ 64)]
    generalize (2 ^ 64) ^ (n + 1) = N at *
    omega)
  exact ⟨e2.trans key, l2, w2⟩

theorem row0_spec {v n : Nat} {x : List Nat} (hv : v < 2 ^ 64) (hx : x.length = n + 1) (wx : Words x) :
    wv (row0 v x) = v * wv x ∧ (row0 v x).length = n + 2 ∧ Words (row0 v x) := by
  have hr := hiRow_loRow v x
  have lx := wv_lt wx
  rw [hx] at lx
  have hb : v * wv x ≤ (2 ^ 64 - 1) * ((2 ^ 64) ^ (n + 1) - 1) := Nat.mul_le_mul (by omega) (by omega)
  obtain ⟨e2, l2, w2⟩ := rowHi_spec (n := n) (c := 0) (l := loRow v x) (by rw [loRow_length, hx])
    (loRow_words x) (by norm_num) (by rw [hiRow_length, hx]) (hiRow_words hv wx) (by
    rw [Nat.mul_zero, Nat.add_zero, hr, pow_succ (2 ^ 64)]
    generalize (2 ^ 64) ^ (n + 1) = N at *
    omega)
  rw [Nat.mul_zero, Nat.add_zero, hr] at e2
  exact ⟨e2, l2, w2⟩

theorem divN_spec (h : P.Good) {w : List Nat} (hw : w.length = P.n + 1) (ww : Words w)
    (hlt : ∀ m < 2 ^ 64, wv w + m * P.p < (2 ^ 64) ^ (P.n + 1)) :
    ∃ m < 2 ^ 64, 2 ^ 64 * wv (divN P.qInvNeg P.q w) = wv w + m * P.p ∧ (divN P.qInvNeg P.q w).length = P.n ∧
      Words (divN P.qInvNeg P.q w) := by
  obtain ⟨q0, qs, hq, hq0, wqs, lqs, ep⟩ := FieldPkg.q_split h
  obtain ⟨k, hk⟩ : ∃ k, P.n = k + 1 := ⟨P.n - 1, by have := h.two_le; omega⟩
  obtain ⟨l, top, rfl, ll⟩ := FieldPkg.concat_of_length hw
  rcases l with _ | ⟨t0, t'⟩
  · rw [hk] at ll; simp at ll
  have hz := FieldPkg.low_zero h ep t0
  rw [Nat.mul_comm t0] at hz
  have hmlt : P.qInvNeg * t0 % 2 ^ 64 < 2 ^ 64 := Nat.mod_lt _ (by norm_num)
  refine ⟨P.qInvNeg * t0 % 2 ^ 64, hmlt, ?_⟩
  have hbound := hlt _ hmlt
  have elast : ((t0 :: t') ++ [top]).getLastD 0 = top := List.getLastD_concat ..
  have edl : ((t0 :: t') ++ [top]).dropLast = t0 :: t' := List.dropLast_concat ..
  have ehd : ((t0 :: t') ++ [top]).headD 0 = t0 := rfl
  have em : (mul64 P.qInvNeg t0).2 = P.qInvNeg * t0 % 2 ^ 64 := rfl
  simp only [divN]
  rw [elast, edl, ehd, em]
  generalize P.qInvNeg * t0 % 2 ^ 64 = m at *
  have wl : Words (t0 :: t') := ww.of_append_left
  have wtop : top < 2 ^ 64 := ww top (by simp)
  obtain ⟨e, l, w, b⟩ := addChain_spec (t0 :: t') (loRow m P.q) 0 wl (loRow_words _)
    (by rw [loRow_length, ll]; rfl) (by omega)
  have hr := hiRow_loRow m P.q
  have hqv : wv P.q = P.p := rfl
  have hhead : (addChain (t0 :: t') (loRow m P.q) 0).1.headD 0 = 0 := by
    rw [hq]
    change (t0 + m * q0 % 2 ^ 64 + 0) % 2 ^ 64 = 0
    rw [Nat.add_zero, ← Nat.add_mod_mod, Nat.mod_mod, Nat.add_mod_mod, Nat.add_comm]
    exact hz
  rw [ll] at e l
  generalize addChain (t0 :: t') (loRow m P.q) 0 = a at *
  rw [hqv] at hr
  rw [wv_concat, ll, pow_succ (2 ^ 64)] at hbound
  have hfit : top + a.2 < 2 ^ 64 := by
    by_contra hne
    have h1 : (2 ^ 64) ^ P.n * 2 ^ 64 ≤ (2 ^ 64) ^ P.n * (top + a.2) := Nat.mul_le_mul_left _ (by omega)
    rw [Nat.mul_add] at h1
    generalize (2 ^ 64) ^ P.n * top = X at *
    generalize (2 ^ 64) ^ P.n * a.2 = Y at *
    generalize (2 ^ 64) ^ P.n = N at *
    omega
  have hc : (add64 0 top a.2).1 = top + a.2 := by
    simp only [add64, Nat.zero_add]; exact Nat.mod_eq_of_lt hfit
  have key : wv a.1 + (2 ^ 64) ^ (k + 1) * (top + a.2) + 2 ^ 64 * wv (hiRow m P.q) =
      wv (t0 :: t') + (2 ^ 64) ^ P.n * top + m * P.p := by
    rw [← hk, Nat.mul_add]
    omega
  rw [hc]
  obtain ⟨e2, l2, w2⟩ := rowHi_spec (n := k) (c := top + a.2) (l := a.1) (u := hiRow m P.q) (by rw [l, hk]) w hfit
    (by rw [hiRow_length]; exact hk) (hiRow_words hmlt h.q_words) (by
      rw [key, show k + 2 = P.n + 1 by omega, pow_succ (2 ^ 64)]
      exact hbound)
  rw [key] at e2
  have hsp : rowHi a.1 (top + a.2) (hiRow m P.q) = 0 :: (rowHi a.1 (top + a.2) (hiRow m P.q)).tail := by
    simp only [rowHi, hhead, List.tail_cons]
  refine ⟨?_, by rw [List.length_tail, l2, hk]; rfl, fun x hx => w2 x (List.mem_of_mem_tail hx)⟩
  rw [hsp, wv_cons, Nat.zero_add] at e2
  rw [e2, wv_concat, ll]

/-- One round, as numbers. -/
theorem round_spec (h : P.Good) (h2 : 2 * P.p ≤ (2 ^ 64) ^ P.n) {w : List Nat} {T v x : Nat}
    (hv : v < 2 ^ 64) (hx : x < P.p) (hT : T < 2 * P.p) (hw : w.length = P.n + 1) (ww : Words w)
    (e : wv w = T + v * x) :
    ∃ m, 2 ^ 64 * wv (divN P.qInvNeg P.q w) = T + v * x + m * P.p ∧ wv (divN P.qInvNeg P.q w) < 2 * P.p ∧
      (divN P.qInvNeg P.q w).length = P.n ∧ Words (divN P.qInvNeg P.q w) := by
  have hvx : v * x ≤ (2 ^ 64 - 1) * P.p := Nat.mul_le_mul (by omega) (by omega)
  have hm' : ∀ m < 2 ^ 64, m * P.p ≤ (2 ^ 64 - 1) * P.p := fun m hm => Nat.mul_le_mul_right _ (by omega)
  obtain ⟨m, hm, e1, l, w1⟩ := divN_spec h hw ww fun m hm => by
    have := hm' m hm
    rw [e, pow_succ (2 ^ 64)]
    generalize (2 ^ 64) ^ P.n = N at *
    generalize m * P.p = mp at *
    generalize v * x = vx at *
    omega
  have := hm' m hm
  rw [e] at e1
  refine ⟨m, e1, ?_, l, w1⟩
  generalize m * P.p = mp at *
  generalize v * x = vx at *
  omega

/-- All rounds. -/
def rounds (qInv : Nat) (q x : List Nat) (t ys : List Nat) : List Nat :=
  ys.foldl (fun t v => divN qInv q (rowN v x t)) t

theorem rounds_spec (h : P.Good) (h2 : 2 * P.p ≤ (2 ^ 64) ^ P.n) {x : List Nat} (hx : x.length = P.n)
    (wx : Words x) (lx : wv x < P.p) : ∀ (ys t : List Nat), Words ys → t.length = P.n → Words t →
    wv t < 2 * P.p →
    ∃ M, (2 ^ 64) ^ ys.length * wv (rounds P.qInvNeg P.q x t ys) = wv t + wv ys * wv x + M * P.p ∧
      wv (rounds P.qInvNeg P.q x t ys) < 2 * P.p ∧ (rounds P.qInvNeg P.q x t ys).length = P.n ∧
      Words (rounds P.qInvNeg P.q x t ys)
  | [], t, _, ht, wt, lt => ⟨0, by simp [rounds, wv], lt, ht, wt⟩
  | v :: ys, t, wy, ht, wt, lt => by
    obtain ⟨k, hk⟩ : ∃ k, P.n = k + 1 := ⟨P.n - 1, by have := h.two_le; omega⟩
    obtain ⟨e, l, w⟩ := rowN_spec wy.head (hx.trans hk) wx (ht.trans hk) wt
    obtain ⟨m, e1, b1, l1, w1⟩ := round_spec h h2 wy.head lx lt (l.trans (by omega)) w e
    obtain ⟨M, e2, b2, l2, w2⟩ := rounds_spec h h2 hx wx lx ys _ wy.tail' l1 w1 b1
    refine ⟨m + 2 ^ 64 * M, ?_, b2, l2, w2⟩
    rw [wv_cons, List.length_cons, pow_succ (2 ^ 64)]
    change (2 ^ 64) ^ ys.length * 2 ^ 64 * wv (rounds P.qInvNeg P.q x (divN P.qInvNeg P.q (rowN v x t)) ys) = _
    generalize (2 : Nat) ^ 64 = B at *
    linear_combination e1 + B * e2

/-- The sum of all rounds of `mul`. -/
def mulSum (qInv : Nat) (q x y : List Nat) : List Nat :=
  rounds qInv q x (divN qInv q (row0 (y.headD 0) x)) y.tail

theorem mulSum_spec (h : P.Good) (h2 : 2 * P.p ≤ (2 ^ 64) ^ P.n) {x y : List Nat} (hx : x.length = P.n)
    (wx : Words x) (lx : wv x < P.p) (hy : y.length = P.n) (wy : Words y) :
    ∃ M, (2 ^ 64) ^ P.n * wv (mulSum P.qInvNeg P.q x y) = wv y * wv x + M * P.p ∧
      wv (mulSum P.qInvNeg P.q x y) < 2 * P.p ∧ (mulSum P.qInvNeg P.q x y).length = P.n ∧
      Words (mulSum P.qInvNeg P.q x y) := by
  obtain ⟨k, hk⟩ : ∃ k, P.n = k + 1 := ⟨P.n - 1, by have := h.two_le; omega⟩
  rcases y with _ | ⟨v, ys⟩
  · rw [hk] at hy; simp at hy
  obtain ⟨e, l, w⟩ := row0_spec wy.head (hx.trans hk) wx
  obtain ⟨m, e1, b1, l1, w1⟩ := round_spec h h2 (T := 0) (v := v) wy.head lx (by have := h.pos; omega)
    (l.trans (by omega)) w (by rw [Nat.zero_add]; exact e)
  obtain ⟨M, e2, b2, l2, w2⟩ := rounds_spec h h2 hx wx lx ys _ wy.tail' l1 w1 b1
  refine ⟨m + 2 ^ 64 * M, ?_, b2, l2, w2⟩
  have ly : ys.length + 1 = P.n := by simpa using hy
  rw [← ly, wv_cons, pow_succ (2 ^ 64)]
  change (2 ^ 64) ^ ys.length * 2 ^ 64 * wv (rounds P.qInvNeg P.q x (divN P.qInvNeg P.q (row0 v x)) ys) = _
  generalize (2 : Nat) ^ 64 = B at *
  linear_combination e1 + B * e2

/-! ### Subtraction -/

/-- `SUBS` and `SBCS`: words and carry, from the carry `c`. -/
def sbcChain : List Nat → List Nat → Nat → List Nat × Nat
  | x :: xs, y :: ys, c =>
    let r := sub64 x y (1 - c)
    let t := sbcChain xs ys (1 - r.2)
    (r.1 :: t.1, t.2)
  | _, _, c => ([], c)

theorem sbcChain_eq : ∀ (x y : List Nat) (b : Nat), b ≤ 1 →
    sbcChain x y (1 - b) = ((subChain x y b).1, 1 - (subChain x y b).2)
  | x :: xs, y :: ys, b, hb => by
    have e : 1 - (1 - b) = b := by omega
    have hr : (sub64 x y b).2 ≤ 1 := by unfold sub64; split <;> simp
    rw [sbcChain, subChain, e]
    simp only
    rw [sbcChain_eq xs ys _ hr]
  | [], _, b, _ => by simp [sbcChain, subChain]
  | _ :: _, [], b, _ => by simp [sbcChain, subChain]

/-- The words of the difference if the carry is set, else those of `t`. -/
def sel (c : Nat) (d t : List Nat) : List Nat := List.zipWith (fun a b => if c = 1 then a else b) d t

theorem sel_pos {d t : List Nat} (h : d.length = t.length) : sel 1 d t = d := by
  unfold sel
  induction d generalizing t with
  | nil => rfl
  | cons a d ih =>
    rcases t with _ | ⟨b, t⟩
    · simp at h
    · rw [List.zipWith_cons_cons, ih (by simpa using h), if_pos rfl]

theorem sel_neg {c : Nat} (hc : c ≠ 1) {d t : List Nat} (h : d.length = t.length) : sel c d t = t := by
  unfold sel
  induction d generalizing t with
  | nil => rcases t with _ | ⟨b, t⟩ <;> simp at h ⊢
  | cons a d ih =>
    rcases t with _ | ⟨b, t⟩
    · simp at h
    · rw [List.zipWith_cons_cons, ih (by simpa using h), if_neg hc]

/-- The last lines of the functions: the modulus is subtracted if there is no borrow. -/
def red (q t : List Nat) : List Nat := sel (sbcChain t q 1).2 (sbcChain t q 1).1 t

theorem red_eq (h : P.Good) {t : List Nat} (ht : t.length = P.n) (wt : Words t) : red P.q t = P.reduce t := by
  obtain ⟨f, l, w, b⟩ := subChain_spec t P.q 0 wt h.q_words ht (by omega)
  have e := sbcChain_eq t P.q 0 (by omega)
  have hlt := wv_lt w
  have ep : wv P.q = P.p := rfl
  have hsm := FieldPkg.smaller_spec h ht wt
  rw [ep, Nat.add_zero] at f
  rw [l] at hlt
  change sbcChain t P.q 1 = _ at e
  rw [red, e]
  simp only
  unfold FieldPkg.reduce
  by_cases hlt' : wv t < P.p
  · have h1 : (subChain t P.q 0).2 = 1 := by
      rcases Nat.lt_or_ge (subChain t P.q 0).2 1 with h0 | h0
      · have : (subChain t P.q 0).2 = 0 := by omega
        rw [this] at f; omega
      · omega
    rw [h1, sel_neg (by norm_num) l, hsm.2 hlt']
    simp
  · have h1 : (subChain t P.q 0).2 = 0 := by
      rcases Nat.lt_or_ge (subChain t P.q 0).2 1 with h0 | h0
      · omega
      · have : (subChain t P.q 0).2 = 1 := by omega
        rw [this, Nat.mul_one] at f; omega
    have hs : P.smaller t = false := by
      rcases hb : P.smaller t with _ | _
      · rfl
      · exact absurd (hsm.1 hb) hlt'
    rw [h1, sel_pos l, hs]
    simp

/-! ### Stores -/

/-- `z[i] = l[0], z[i+1] = l[1], ...` -/
def store (z : Nat) : Nat → List Nat → Mem → Mem
  | _, [], m => m
  | i, w :: l, m => store z (i + 1) l (m.write z i w)

theorem store_aux (z : Nat) : ∀ (l : List Nat) (i : Nat) (m : Mem), (m z).length = i + l.length →
    store z i l m = Function.update m z ((m z).take i ++ l)
  | [], i, m, h => by
    rw [store, List.append_nil, List.take_of_length_le (by rw [h]; simp), Function.update_eq_self]
  | w :: l, i, m, h => by
    rw [store, store_aux z l (i + 1) _ (by
      rw [Mem.write, Function.update_self, List.length_set, h, List.length_cons]; omega), Mem.write,
      Function.update_self, Function.update_idem]
    congr 1
    rw [List.take_succ_eq_append_getElem (by rw [List.length_set, h, List.length_cons]; omega),
      List.getElem_set_self, List.take_set_of_le (le_refl _), List.append_assoc]
    rfl

theorem store_eq (z : Nat) (l : List Nat) (m : Mem) (h : (m z).length = l.length) :
    store z 0 l m = Function.update m z l := by
  rw [store_aux z l 0 m (by omega)]; rfl

/-! ### The programs -/

/-- The first words of an element. -/
def words (n : Nat) (w : List Nat) : List Nat := (List.range n).map fun i => w.getD i 0

theorem words_eq {n : Nat} {w : List Nat} (h : w.length = n) : words n w = w := by
  unfold words
  refine List.ext_getElem (by simp [h]) fun i h1 h2 => ?_
  rw [List.getElem_map, List.getElem_range, List.getD_eq_getElem?_getD, List.getElem?_eq_getElem h2]
  rfl


/-- `rfl`, checked by the kernel only: here its conversion checker is much faster than the elaborator's. -/
elab "kernel_rfl" : tactic => Lean.Elab.Tactic.liftMetaTactic fun g => do
  let some (_, l, _) := (← Lean.instantiateMVars (← g.getType)).eq? | failure
  g.assign (← Lean.Meta.mkEqRefl l)
  return []

theorem reduce_2w_run (x : Nat) (s : St) : call P reduce_2w [x] s =
    store x 0 (red (words 2 P.q) (words 2 (s.mem x))) s.mem := by kernel_rfl

theorem reduce_4w_run (x : Nat) (s : St) : call P reduce_4w [x] s =
    store x 0 (red (words 4 P.q) (words 4 (s.mem x))) s.mem := by kernel_rfl

/-- The difference with the modulus added if there was a borrow. -/
def subRed (q x y : List Nat) : List Nat :=
  (addChain (q.map fun w => if (sbcChain x y 1).2 = 1 then 0 else w) (sbcChain x y 1).1 0).1

theorem butterfly_2w_run (x y : Nat) (s : St) : call P butterfly_2w [x, y] s =
    store x 0 (red (words 2 P.q) (addChain (words 2 (s.mem y)) (words 2 (s.mem x)) 0).1)
      (store y 0 (subRed (words 2 P.q) (words 2 (s.mem x)) (words 2 (s.mem y))) s.mem) := by kernel_rfl

theorem butterfly_4w_run (x y : Nat) (s : St) : call P butterfly_4w [x, y] s =
    store x 0 (red (words 4 P.q) (addChain (words 4 (s.mem y)) (words 4 (s.mem x)) 0).1)
      (store y 0 (subRed (words 4 P.q) (words 4 (s.mem x)) (words 4 (s.mem y))) s.mem) := by kernel_rfl

theorem mul_2w_run (z x y : Nat) (s : St) : call P mul_2w [z, x, y] s =
    store z 0 (red (words 2 P.q) (mulSum P.qInvNeg (words 2 P.q) (words 2 (s.mem x)) (words 2 (s.mem y)))) s.mem := by kernel_rfl

theorem mul_4w_run (z x y : Nat) (s : St) : call P mul_4w [z, x, y] s =
    store z 0 (red (words 4 P.q) (mulSum P.qInvNeg (words 4 P.q) (words 4 (s.mem x)) (words 4 (s.mem y)))) s.mem := by
  kernel_rfl

theorem addChain_comm : ∀ (x y : List Nat) (c : Nat), addChain x y c = addChain y x c
  | x :: xs, y :: ys, c => by
    have e : add64 x y c = add64 y x c := by simp only [add64, Nat.add_comm x y]
    rw [addChain, addChain, e]
    simp only
    rw [addChain_comm xs ys]
  | [], [], _ => rfl
  | [], _ :: _, _ => rfl
  | _ :: _, [], _ => rfl

theorem reduce_length (h : P.Good) {z : List Nat} (hz : z.length = P.n) (wz : Words z) :
    (P.reduce z).length = P.n := by
  unfold FieldPkg.reduce
  split
  · exact (subChain_spec z P.q 0 wz h.q_words hz (by omega)).2.1.trans hz
  · exact hz

theorem q_words (P : FieldPkg) : words P.n P.q = P.q := words_eq rfl

theorem subRed_eq {x y : List Nat} (hx : x.length = P.n) (wx : Words x) (hy : y.length = P.n)
    (wy : Words y) : subRed P.q x y = P.sub x y := by
  rw [Amd64.sub_eq hx wx hy wy, subRed, show sbcChain x y 1 = _ from sbcChain_eq x y 0 (by omega), addChain_comm]
  simp only
  obtain ⟨-, l, w, b⟩ := subChain_spec x y 0 wx wy (hx.trans hy.symm) (by omega)
  rcases Nat.lt_or_ge (subChain x y 0).2 1 with h0 | h0
  · have e : (subChain x y 0).2 = 0 := by omega
    rw [e]
    simp only [Nat.sub_zero, if_true, Nat.zero_ne_one, if_false, List.map_const']
    rfl
  · have e : (subChain x y 0).2 = 1 := by omega
    rw [e]
    simp

section
variable (h : P.Good) {s : St} (hs : s.Ok)
include h hs

theorem reduce_call {code : List Instr} {x : Nat}
    (hc : call P code [x] s = store x 0 (red (words P.n P.q) (words P.n (s.mem x))) s.mem)
    (hl : (s.mem x).length = P.n) :
    call P code [x] s = Function.update s.mem x (P.reduce (s.mem x)) := by
  rw [hc, words_eq hl, q_words, red_eq h hl (hs.mem x), store_eq]
  rw [hl, reduce_length h hl (hs.mem x)]

theorem butterfly_call (hf : P.full = false) {code : List Instr} {x y : Nat}
    (hc : call P code [x, y] s = store x 0 (red (words P.n P.q) (addChain (words P.n (s.mem y)) (words P.n (s.mem x)) 0).1)
      (store y 0 (subRed (words P.n P.q) (words P.n (s.mem x)) (words P.n (s.mem y))) s.mem))
    (hx : (s.mem x).length = P.n) (hy : (s.mem y).length = P.n) :
    call P code [x, y] s = Function.update (Function.update s.mem y (P.sub (s.mem x) (s.mem y))) x
      (P.add (s.mem y) (s.mem x)) := by
  obtain ⟨-, l, w, -⟩ := addChain_spec (s.mem y) (s.mem x) 0 (hs.mem y) (hs.mem x) (hy.trans hx.symm) (by omega)
  have ls : (P.sub (s.mem x) (s.mem y)).length = P.n := by
    obtain ⟨-, l1, w1, -⟩ := subChain_spec (s.mem x) (s.mem y) 0 (hs.mem x) (hs.mem y) (hx.trans hy.symm) (by omega)
    unfold FieldPkg.sub
    simp only
    split
    · exact ((addChain_spec _ P.q 0 w1 h.q_words (l1.trans hx) (by omega)).2.1).trans (l1.trans hx)
    · exact l1.trans hx
  rw [hc, words_eq hx, words_eq hy, q_words, red_eq h (l.trans hy) w, subRed_eq hx (hs.mem x) hy (hs.mem y),
    store_eq y _ s.mem (hy.trans ls.symm), Amd64.add_eq hf, store_eq]
  rw [reduce_length h (l.trans hy) w]
  by_cases e : x = y
  · rw [← e] at ls ⊢; rw [Function.update_self, ls]
  · rw [Function.update_of_ne e, hx]

omit hs in
theorem mul_call (h2 : 2 * P.p ≤ (2 ^ 64) ^ P.n) {code : List Instr} {z x y : Nat}
    (hc : call P code [z, x, y] s = store z 0 (red (words P.n P.q)
      (mulSum P.qInvNeg (words P.n P.q) (words P.n (s.mem x)) (words P.n (s.mem y)))) s.mem)
    (hl : (s.mem z).length = P.n) {a b : ZMod P.p} (hx : MontForm P.p P.n (s.mem x) a)
    (hy : MontForm P.p P.n (s.mem y) b) :
    ∃ w, MontForm P.p P.n w (a * b) ∧ call P code [z, x, y] s = Function.update s.mem z w := by
  obtain ⟨M, e, b, l, w⟩ := mulSum_spec h h2 hx.len hx.words hx.lt hy.len hy.words
  obtain ⟨r1, r2, r3⟩ := FieldPkg.reduce_spec h l w b
  refine ⟨_, Amd64.mont_of_num h hx hy e r1 r2 r3, ?_⟩
  rw [hc, words_eq hx.len, words_eq hy.len, q_words, red_eq h l w, store_eq]
  rw [hl, r2]

end

end Ringo.Arm64
