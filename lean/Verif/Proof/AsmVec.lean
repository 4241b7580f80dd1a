import Verif.Model.AsmVec
import Verif.Proof.AsmArm64
import Verif.Proof.FieldVecOps

/-! The loops of `addVec` and `subVec`. -/

namespace Ringo.Amd64

variable {P : FieldPkg}

/-! ### Runs -/

/-- Instructions that go on to the next. -/
def LInstr.straight : LInstr → Bool
  | .jeq _ | .jmp _ | .ret => false
  | _ => true

def lexecs (P : FieldPkg) (s : St) (is : List LInstr) : St := is.foldl (lexec P) s

theorem lrun_append (code : List LInstr) : ∀ (a b : List LInstr) (k : Nat) (s : St), a.all LInstr.straight = true →
    lrun P code (k + a.length) (a ++ b) s = lrun P code k b (lexecs P s a)
  | [], b, k, s, _ => rfl
  | x :: a, b, k, s, h => by
    rw [List.all_cons, Bool.and_eq_true] at h
    rw [List.length_cons, ← Nat.add_assoc, List.cons_append]
    have := lrun_append code a b k (lexec P s x) h.2
    cases x <;> first | exact this | simp [LInstr.straight] at h

theorem lrun_mono (code : List LInstr) : ∀ (k j : Nat) (is : List LInstr) (s s' : St), k ≤ j →
    lrun P code k is s = some s' → lrun P code j is s = some s'
  | 0, _, _, _, _, _, h => by rw [lrun] at h; cases h
  | k + 1, 0, _, _, _, hj, _ => absurd hj (by omega)
  | k + 1, j + 1, is, s, s', hj, h => by
    have ih := fun is s => lrun_mono code k j is s s' (by omega)
    rcases is with _ | ⟨x, is⟩
    · exact h
    · cases x with
      | ret => exact h
      | jmp l => exact ih _ _ h
      | jeq l =>
        rw [lrun] at h ⊢
        split at h
        · rename_i hz; rw [if_pos hz]; exact ih _ _ h
        · rename_i hz; rw [if_neg hz]; exact ih _ _ h
      | i x => exact ih _ _ h
      | test r => exact ih _ _ h
      | dec r => exact ih _ _ h
      | prefetch => exact ih _ _ h
      | label l => exact ih _ _ h

/-- A call leaves one memory. -/
theorem LCall.unique {code : List LInstr} {args : List Nat} {s : St} {m m' : Mem} (h : LCall P code args s m)
    (h' : LCall P code args s m') : m = m' := by
  obtain ⟨k, t, e, rfl⟩ := h
  obtain ⟨k', t', e', rfl⟩ := h'
  have h1 := lrun_mono code k (max k k') _ _ _ (le_max_left _ _) e
  have h2 := lrun_mono code k' (max k k') _ _ _ (le_max_right _ _) e'
  rw [h1, Option.some.injEq] at h2
  rw [h2]

/-! ### The bodies -/

/-- Lines 471-504 without the jumps. -/
def addBody : List LInstr := (addVec_4w.drop 7).take 30

/-- Lines 517-564 without the jumps. -/
def subBody : List LInstr := (subVec_4w.drop 8).take 30

/-- `lexec`, with the choice of the conditional moves on the word instead of the state. -/
def lexecW (P : FieldPkg) (s : St) : LInstr → St
  | .i (.cmovcs o d) => s.set d (if s.cf = 1 then s.rd P o else s.loc d)
  | .i (.cmovcc o d) => s.set d (if s.cf = 1 then s.loc d else s.rd P o)
  | x => lexec P s x

theorem set_self (s : St) (d : Loc) : s.set d (s.loc d) = s := by
  unfold St.set; rw [Function.update_eq_self]

theorem lexecW_eq (s : St) (x : LInstr) : lexecW P s x = lexec P s x := by
  cases x with
  | i x =>
    cases x with
    | cmovcs o d =>
      change s.set d (if s.cf = 1 then s.rd P o else s.loc d) = if s.cf = 1 then s.set d (s.rd P o) else s
      split
      · rfl
      · rw [set_self]
    | cmovcc o d =>
      change s.set d (if s.cf = 1 then s.loc d else s.rd P o) = if s.cf = 1 then s else s.set d (s.rd P o)
      split
      · rw [set_self]
      · rfl
    | _ => rfl
  | _ => rfl

def lexecsW (P : FieldPkg) (s : St) (is : List LInstr) : St := is.foldl (lexecW P) s

theorem lexecsW_eq : ∀ (is : List LInstr) (s : St), lexecsW P s is = lexecs P s is
  | [], _ => rfl
  | x :: is, s => by
    have := lexecsW_eq is (lexec P s x)
    change lexecsW P (lexecW P s x) is = _
    rw [lexecW_eq]
    exact this

/-- The modulus is subtracted if there is no borrow. -/
def red (q t : List Nat) : List Nat :=
  List.zipWith (fun a b => if (subChain t q 0).2 = 1 then b else a) (subChain t q 0).1 t

/-- The modulus, or zeros, is added to the difference. -/
def subQ (z : Nat) (q x y : List Nat) : List Nat :=
  (addChain (subChain x y 0).1 (q.map fun w => if (subChain x y 0).2 = 1 then w else z) 0).1

open Arm64 (words store)

theorem addBody_mem (s : St) : (lexecsW P s addBody).mem = store (s.loc .CX) 0
    (red (words 4 P.q) (addChain (words 4 (s.mem (s.loc .AX))) (words 4 (s.mem (s.loc .DX))) 0).1) s.mem := by
  kernel_rfl

theorem addBody_loc (s : St) : ((lexecsW P s addBody).loc .CX, (lexecsW P s addBody).loc .AX,
    (lexecsW P s addBody).loc .DX, (lexecsW P s addBody).loc .BX) =
    ((s.loc .CX + 32) % 2 ^ 64, (s.loc .AX + 32) % 2 ^ 64, (s.loc .DX + 32) % 2 ^ 64,
      (sub64 (s.loc .BX) 1 0).1) := by
  kernel_rfl

theorem subBody_mem (s : St) : (lexecsW P s subBody).mem = store (s.loc .CX) 0
    (subQ (s.loc .SI) (words 4 P.q) (words 4 (s.mem (s.loc .AX))) (words 4 (s.mem (s.loc .DX)))) s.mem := by
  kernel_rfl

theorem subBody_loc (s : St) : ((lexecsW P s subBody).loc .CX, (lexecsW P s subBody).loc .AX,
    (lexecsW P s subBody).loc .DX, (lexecsW P s subBody).loc .BX, (lexecsW P s subBody).loc .SI) =
    ((s.loc .CX + 32) % 2 ^ 64, (s.loc .AX + 32) % 2 ^ 64, (s.loc .DX + 32) % 2 ^ 64,
      (sub64 (s.loc .BX) 1 0).1, s.loc .SI) := by
  kernel_rfl

/-! ### What the bodies compute -/

theorem red_eq (h : P.Good) {t : List Nat} (ht : t.length = P.n) (wt : Words t) : red P.q t = P.reduce t := by
  rw [← Arm64.red_eq h ht wt]
  obtain ⟨-, l, -, b⟩ := subChain_spec t P.q 0 wt h.q_words ht (by omega)
  have e : Arm64.sbcChain t P.q 1 = _ := Arm64.sbcChain_eq t P.q 0 (by omega)
  rw [red, Arm64.red, e]
  simp only [Arm64.sel]
  congr 1
  funext a b
  have hb : (subChain t P.q 0).2 = 0 ∨ (subChain t P.q 0).2 = 1 := by omega
  rcases hb with hb | hb <;> simp [hb]

theorem subQ_eq {x y : List Nat} (hx : x.length = P.n) (wx : Words x) (hy : y.length = P.n) (wy : Words y) :
    subQ 0 P.q x y = P.sub x y := by
  rw [← Arm64.subRed_eq hx wx hy wy, subQ, Arm64.subRed, Arm64.addChain_comm]
  have e : Arm64.sbcChain x y 1 = _ := Arm64.sbcChain_eq x y 0 (by omega)
  obtain ⟨-, -, -, b⟩ := subChain_spec x y 0 wx wy (hx.trans hy.symm) (by omega)
  have hb : (subChain x y 0).2 = 0 ∨ (subChain x y 0).2 = 1 := by omega
  rw [e]
  rcases hb with hb | hb <;> simp [hb]

theorem addBody_at (h : P.Good) (hf : P.full = false) (hn : P.n = 4) {s : St} (hw : ∀ a, Words (s.mem a))
    (hz : (s.mem (s.loc .CX)).length = P.n) (hx : (s.mem (s.loc .AX)).length = P.n)
    (hy : (s.mem (s.loc .DX)).length = P.n) :
    (lexecs P s addBody).mem = P.addAt s.mem (s.loc .CX) (s.loc .AX) (s.loc .DX) := by
  obtain ⟨-, l, w, -⟩ := addChain_spec (s.mem (s.loc .AX)) (s.mem (s.loc .DX)) 0 (hw _) (hw _) (hx.trans hy.symm)
    (by omega)
  rw [← lexecsW_eq, addBody_mem, ← hn, Arm64.q_words, Arm64.words_eq hx, Arm64.words_eq hy,
    red_eq h (l.trans hx) w, FieldPkg.addAt_eq _ _ _ _ hz hx hy (l.trans hx), add_eq hf, Arm64.store_eq]
  rw [hz, Arm64.reduce_length h (l.trans hx) w]

theorem sub_length (h : P.Good) {x y : List Nat} (hx : x.length = P.n) (wx : Words x) (hy : y.length = P.n)
    (wy : Words y) : (P.sub x y).length = P.n ∧ Words (P.sub x y) := by
  obtain ⟨-, l1, w1, -⟩ := subChain_spec x y 0 wx wy (hx.trans hy.symm) (by omega)
  unfold FieldPkg.sub
  simp only
  split
  · obtain ⟨-, l2, w2, -⟩ := addChain_spec _ P.q 0 w1 h.q_words (l1.trans hx) (by omega)
    exact ⟨l2.trans (l1.trans hx), w2⟩
  · exact ⟨l1.trans hx, w1⟩

theorem add_length (h : P.Good) (hf : P.full = false) {x y : List Nat} (hx : x.length = P.n) (wx : Words x)
    (hy : y.length = P.n) (wy : Words y) : (P.add x y).length = P.n ∧ Words (P.add x y) := by
  obtain ⟨-, l, w, -⟩ := addChain_spec x y 0 wx wy (hx.trans hy.symm) (by omega)
  rw [add_eq hf]
  refine ⟨Arm64.reduce_length h (l.trans hx) w, ?_⟩
  unfold FieldPkg.reduce
  split
  · exact (subChain_spec _ P.q 0 w h.q_words (l.trans hx) (by omega)).2.2.1
  · exact w

theorem subBody_at (h : P.Good) (hn : P.n = 4) {s : St} (hw : ∀ a, Words (s.mem a)) (h0 : s.loc .SI = 0)
    (hz : (s.mem (s.loc .CX)).length = P.n) (hx : (s.mem (s.loc .AX)).length = P.n)
    (hy : (s.mem (s.loc .DX)).length = P.n) :
    (lexecs P s subBody).mem = P.subAt s.mem (s.loc .CX) (s.loc .AX) (s.loc .DX) := by
  obtain ⟨-, l, w, -⟩ := subChain_spec (s.mem (s.loc .AX)) (s.mem (s.loc .DX)) 0 (hw _) (hw _) (hx.trans hy.symm)
    (by omega)
  rw [← lexecsW_eq, subBody_mem, ← hn, Arm64.q_words, Arm64.words_eq hx, Arm64.words_eq hy, h0,
    subQ_eq hx (hw _) hy (hw _), FieldPkg.subAt_eq _ _ _ _ hz hx hy (l.trans hx), Arm64.store_eq]
  rw [hz, (sub_length h hx (hw _) hy (hw _)).1]

/-! ### Entry -/

/-- The state at the label of `addVec`. -/
def addEntry (P : FieldPkg) (s : St) : St := lexecs P s (addVec_4w.take 5)

/-- The state at the label of `subVec`. -/
def subEntry (P : FieldPkg) (s : St) : St := lexecs P s (subVec_4w.take 6)

theorem addEntry_eq (s : St) : (addEntry P s).mem = s.mem ∧ (addEntry P s).loc .CX = s.arg 0 ∧
    (addEntry P s).loc .AX = s.arg 1 ∧ (addEntry P s).loc .DX = s.arg 2 ∧ (addEntry P s).loc .BX = s.arg 3 :=
  ⟨rfl, rfl, rfl, rfl, rfl⟩

theorem subEntry_eq (s : St) : (subEntry P s).mem = s.mem ∧ (subEntry P s).loc .CX = s.arg 0 ∧
    (subEntry P s).loc .AX = s.arg 1 ∧ (subEntry P s).loc .DX = s.arg 2 ∧ (subEntry P s).loc .BX = s.arg 3 ∧
    (subEntry P s).loc .SI = 0 :=
  ⟨rfl, rfl, rfl, rfl, rfl, Nat.xor_self _⟩

theorem addVec_at3 : codeAt 3 addVec_4w = .test .BX :: .jeq 4 :: (addBody ++ [.jmp 3, .label 4, .ret]) := rfl
theorem addVec_at4 : codeAt 4 addVec_4w = [.ret] := rfl
theorem addVec_split : addVec_4w = addVec_4w.take 5 ++ codeAt 3 addVec_4w := rfl
theorem addBody_straight : addBody.all LInstr.straight = true := rfl
theorem subVec_at5 : codeAt 5 subVec_4w = .test .BX :: .jeq 6 :: (subBody ++ [.jmp 5, .label 6, .ret]) := rfl
theorem subVec_at6 : codeAt 6 subVec_4w = [.ret] := rfl
theorem subVec_split : subVec_4w = subVec_4w.take 6 ++ codeAt 5 subVec_4w := rfl
theorem subBody_straight : subBody.all LInstr.straight = true := rfl
theorem addEntry_run (k : Nat) (s : St) : lrun P addVec_4w (k + 5) addVec_4w s =
    lrun P addVec_4w k (codeAt 3 addVec_4w) (addEntry P s) :=
  lrun_append (P := P) addVec_4w (addVec_4w.take 5) (codeAt 3 addVec_4w) k s rfl
theorem subEntry_run (k : Nat) (s : St) : lrun P subVec_4w (k + 6) subVec_4w s =
    lrun P subVec_4w k (codeAt 5 subVec_4w) (subEntry P s) :=
  lrun_append (P := P) subVec_4w (subVec_4w.take 6) (codeAt 5 subVec_4w) k s rfl

theorem test_run (code rest : List LInstr) (l k : Nat) (s : St) :
    lrun P code (k + 2) (.test .BX :: .jeq l :: rest) s =
      if s.loc .BX = 0 then lrun P code k (codeAt l code) (lexec P s (.test .BX))
      else lrun P code k rest (lexec P s (.test .BX)) := by
  rw [lrun, lrun]
  have : (lexec P s (.test .BX)).zf = (s.loc .BX == 0) := rfl
  rw [this]
  simp only [beq_iff_eq]
  all_goals simp

theorem jmp_run (code rest : List LInstr) (l k : Nat) (s : St) :
    lrun P code (k + 1) (.jmp l :: rest) s = lrun P code k (codeAt l code) s := rfl

theorem test_keep (s : St) : (lexec P s (.test .BX)).mem = s.mem ∧ ∀ r, (lexec P s (.test .BX)).loc r = s.loc r :=
  ⟨rfl, fun _ => rfl⟩

attribute [local irreducible] addBody subBody addEntry subEntry addVec_4w subVec_4w lexecs lrun lexec codeAt

/-! ### The loops -/

theorem sub64_one (n : Nat) : (sub64 (n + 1) 1 0).1 = n := by
  unfold sub64
  simp

theorem loop_run {code L body : List LInstr} {op : Mem → Nat → Nat → Nat → Mem}
    {S : St → Prop} (hn : P.n = 4)
    (hend : ∀ s : St, s.loc .BX = 0 → ∃ k s', lrun P code k L s = some s' ∧ s'.mem = s.mem)
    (hstep : ∀ (s : St) (k : Nat), s.loc .BX ≠ 0 →
      lrun P code (k + (body.length + 3)) L s = lrun P code k L (lexecs P (lexec P s (.test .BX)) body))
    (hS : ∀ s, S s → S (lexecs P (lexec P s (.test .BX)) body))
    (hloc : ∀ s, (lexecs P s body).loc .CX = (s.loc .CX + 32) % 2 ^ 64 ∧
      (lexecs P s body).loc .AX = (s.loc .AX + 32) % 2 ^ 64 ∧
      (lexecs P s body).loc .DX = (s.loc .DX + 32) % 2 ^ 64 ∧
      (lexecs P s body).loc .BX = (sub64 (s.loc .BX) 1 0).1)
    (hmem : ∀ s, S s → (∀ a, Words (s.mem a)) → (s.mem (s.loc .CX)).length = P.n →
      (s.mem (s.loc .AX)).length = P.n → (s.mem (s.loc .DX)).length = P.n →
      (lexecs P (lexec P s (.test .BX)) body).mem = op s.mem (s.loc .CX) (s.loc .AX) (s.loc .DX))
    (hop : ∀ (m : Mem) (z x y : Nat), (∀ a, Words (m a)) → (m z).length = P.n → (m x).length = P.n →
      (m y).length = P.n → ∃ w, w.length = P.n ∧ Words w ∧ op m z x y = Function.update m z w)
    (res a b : Nat) : ∀ (n i : Nat) (s : St), S s → (∀ p, Words (s.mem p)) → n < 2 ^ 64 → s.loc .BX = n →
    s.loc .CX = (res + 32 * i) % 2 ^ 64 → s.loc .AX = (a + 32 * i) % 2 ^ 64 → s.loc .DX = (b + 32 * i) % 2 ^ 64 →
    res + 32 * (i + n) ≤ 2 ^ 64 → a + 32 * (i + n) ≤ 2 ^ 64 → b + 32 * (i + n) ≤ 2 ^ 64 →
    (∀ j, i ≤ j → j < i + n → (s.mem (P.elemPtr res j)).length = P.n ∧ (s.mem (P.elemPtr a j)).length = P.n ∧
      (s.mem (P.elemPtr b j)).length = P.n) →
    ∃ k s', lrun P code k L s = some s' ∧ s'.mem = P.vecLoop op res a b n i s.mem := by
  have hptr : ∀ v i : Nat, P.elemPtr v i = v + 32 * i := by intro v i; rw [FieldPkg.elemPtr, hn]
  intro n
  induction n with
  | zero =>
    intro i s _ _ _ hb _ _ _ _ _ _ _
    obtain ⟨k, s', h1, h2⟩ := hend s hb
    exact ⟨k, s', h1, h2⟩
  | succ n ih =>
    intro i s hs hw hn64 hb hc ha hd r1 r2 r3 hl
    obtain ⟨l1, l2, l3⟩ := hl i le_rfl (by omega)
    rw [Nat.mod_eq_of_lt (by omega)] at hc ha hd
    rw [hptr] at l1 l2 l3
    have hm := hmem s hs hw (by rw [hc]; exact l1) (by rw [ha]; exact l2) (by rw [hd]; exact l3)
    rw [hc, ha, hd] at hm
    obtain ⟨w, hwl, hww, hop'⟩ := hop s.mem (res + 32 * i) (a + 32 * i) (b + 32 * i) hw l1 l2 l3
    obtain ⟨c1, c2, c3, c4⟩ := hloc (lexec P s (.test .BX))
    have t := (test_keep (P := P) s).2
    rw [t] at c1 c2 c3 c4
    have hws : ∀ p, Words ((lexecs P (lexec P s (.test .BX)) body).mem p) := by
      intro p
      rw [hm, hop']
      by_cases hp : p = res + 32 * i
      · rw [hp, Function.update_self]; exact hww
      · rw [Function.update_of_ne hp]; exact hw p
    obtain ⟨k, s', e1, e2⟩ := ih (i + 1) _ (hS s hs) hws (by omega)
      (by rw [c4, hb]; exact sub64_one n)
      (by rw [c1, hc, Nat.add_assoc, ← Nat.mul_succ]) (by rw [c2, ha, Nat.add_assoc, ← Nat.mul_succ])
      (by rw [c3, hd, Nat.add_assoc, ← Nat.mul_succ]) (by omega) (by omega) (by omega)
      (by
        intro j h1 h2
        have hlen : ∀ p, (s.mem p).length = P.n → ((lexecs P (lexec P s (.test .BX)) body).mem p).length = P.n := by
          intro p hp
          rw [hm, hop']
          by_cases hpe : p = res + 32 * i
          · rw [hpe, Function.update_self]; exact hwl
          · rw [Function.update_of_ne hpe]; exact hp
        obtain ⟨k1, k2, k3⟩ := hl j (by omega) (by omega)
        exact ⟨hlen _ k1, hlen _ k2, hlen _ k3⟩)
    refine ⟨k + (body.length + 3), s', ?_, ?_⟩
    · rw [hstep s k (by rw [hb]; omega)]; exact e1
    · rw [e2, hm, FieldPkg.vecLoop, hptr, hptr, hptr]

theorem addVec_call (h : P.Good) (hf : P.full = false) (hn : P.n = 4) {s : St} (hw : ∀ a, Words (s.mem a))
    {res a b n : Nat} (h64 : n < 2 ^ 64) (r1 : res + 32 * n ≤ 2 ^ 64) (r2 : a + 32 * n ≤ 2 ^ 64)
    (r3 : b + 32 * n ≤ 2 ^ 64) (r0 : 0 < n)
    (hl : ∀ j < n, (s.mem (P.elemPtr res j)).length = P.n ∧ (s.mem (P.elemPtr a j)).length = P.n ∧
      (s.mem (P.elemPtr b j)).length = P.n) :
    LCall P addVec_4w [res, a, b, n] s (P.vecLoop P.addAt res a b n 0 s.mem) := by
  have ent := addEntry_eq (P := P) { s with arg := fun i => [res, a, b, n].getD i 0 }
  have hloc := fun s => addBody_loc (P := P) s
  simp only [lexecsW_eq, Prod.mk.injEq] at hloc
  obtain ⟨k, s', e1, e2⟩ := loop_run (P := P) (code := addVec_4w) (L := codeAt 3 addVec_4w) (body := addBody)
    (op := P.addAt) (S := fun s => True) hn
    (by
      intro s hb
      refine ⟨3, lexec P s (.test .BX), ?_, (test_keep s).1⟩
      rw [addVec_at3, test_run, if_pos hb, addVec_at4]
      unfold lrun
      rfl)
    (by
      intro s k hb
      have e : k + (addBody.length + 3) = (k + 1 + addBody.length) + 2 := by omega
      conv_lhs => rw [addVec_at3]
      rw [e, test_run, if_neg hb, lrun_append _ _ _ _ _ addBody_straight, jmp_run])
    (fun _ _ => trivial)
    (fun s => ⟨(hloc s).1, (hloc s).2.1, (hloc s).2.2.1, (hloc s).2.2.2⟩)
    (by
      intro s h0 hw hz hx hy
      obtain ⟨t1, t2⟩ := test_keep (P := P) s
      have key := addBody_at (s := lexec P s (.test .BX)) h hf hn (by rw [t1]; exact hw) (by rw [t1, t2]; exact hz)
        (by rw [t1, t2]; exact hx) (by rw [t1, t2]; exact hy)
      rw [key, t1, t2, t2, t2])
    (by
      intro m z x y hw hz hx hy
      have hl := (addChain_spec (m x) (m y) 0 (hw x) (hw y) (hx.trans hy.symm) (by omega)).2.1
      obtain ⟨k1, k2⟩ := add_length h hf hx (hw x) hy (hw y)
      exact ⟨_, k1, k2, FieldPkg.addAt_eq m z x y hz hx hy (hl.trans hx)⟩)
    res a b n 0 (addEntry P { s with arg := fun i => [res, a, b, n].getD i 0 }) trivial
    (by rw [ent.1]; exact hw) h64 ent.2.2.2.2
    (by rw [ent.2.1, Nat.mod_eq_of_lt (by omega)]; rfl) (by rw [ent.2.2.1, Nat.mod_eq_of_lt (by omega)]; rfl)
    (by rw [ent.2.2.2.1, Nat.mod_eq_of_lt (by omega)]; rfl)
    (by rw [Nat.zero_add]; exact r1) (by rw [Nat.zero_add]; exact r2) (by rw [Nat.zero_add]; exact r3)
    (fun j _ hj => by rw [ent.1]; exact hl j (by omega))
  refine ⟨k + 5, s', ?_, ?_⟩
  · rw [addEntry_run]; exact e1
  · rw [e2, ent.1]

theorem subVec_call (h : P.Good) (hn : P.n = 4) {s : St} (hw : ∀ a, Words (s.mem a))
    {res a b n : Nat} (h64 : n < 2 ^ 64) (r1 : res + 32 * n ≤ 2 ^ 64) (r2 : a + 32 * n ≤ 2 ^ 64)
    (r3 : b + 32 * n ≤ 2 ^ 64) (r0 : 0 < n)
    (hl : ∀ j < n, (s.mem (P.elemPtr res j)).length = P.n ∧ (s.mem (P.elemPtr a j)).length = P.n ∧
      (s.mem (P.elemPtr b j)).length = P.n) :
    LCall P subVec_4w [res, a, b, n] s (P.vecLoop P.subAt res a b n 0 s.mem) := by
  have ent := subEntry_eq (P := P) { s with arg := fun i => [res, a, b, n].getD i 0 }
  have hloc := fun s => subBody_loc (P := P) s
  simp only [lexecsW_eq, Prod.mk.injEq] at hloc
  obtain ⟨k, s', e1, e2⟩ := loop_run (P := P) (code := subVec_4w) (L := codeAt 5 subVec_4w) (body := subBody)
    (op := P.subAt) (S := fun s => s.loc .SI = 0) hn
    (by
      intro s hb
      refine ⟨3, lexec P s (.test .BX), ?_, (test_keep s).1⟩
      rw [subVec_at5, test_run, if_pos hb, subVec_at6]
      unfold lrun
      rfl)
    (by
      intro s k hb
      have e : k + (subBody.length + 3) = (k + 1 + subBody.length) + 2 := by omega
      conv_lhs => rw [subVec_at5]
      rw [e, test_run, if_neg hb, lrun_append _ _ _ _ _ subBody_straight, jmp_run])
    (fun s h0 => (hloc (lexec P s (.test .BX))).2.2.2.2.trans (((test_keep s).2 _).trans h0))
    (fun s => ⟨(hloc s).1, (hloc s).2.1, (hloc s).2.2.1, (hloc s).2.2.2.1⟩)
    (by
      intro s h0 hw hz hx hy
      obtain ⟨t1, t2⟩ := test_keep (P := P) s
      have key := subBody_at (s := lexec P s (.test .BX)) h hn (by rw [t1]; exact hw) (by rw [t2]; exact h0) (by rw [t1, t2]; exact hz)
        (by rw [t1, t2]; exact hx) (by rw [t1, t2]; exact hy)
      rw [key, t1, t2, t2, t2])
    (by
      intro m z x y hw hz hx hy
      have hl := (subChain_spec (m x) (m y) 0 (hw x) (hw y) (hx.trans hy.symm) (by omega)).2.1
      obtain ⟨k1, k2⟩ := sub_length h hx (hw x) hy (hw y)
      exact ⟨_, k1, k2, FieldPkg.subAt_eq m z x y hz hx hy (hl.trans hx)⟩)
    res a b n 0 (subEntry P { s with arg := fun i => [res, a, b, n].getD i 0 }) ent.2.2.2.2.2
    (by rw [ent.1]; exact hw) h64 ent.2.2.2.2.1
    (by rw [ent.2.1, Nat.mod_eq_of_lt (by omega)]; rfl) (by rw [ent.2.2.1, Nat.mod_eq_of_lt (by omega)]; rfl)
    (by rw [ent.2.2.2.1, Nat.mod_eq_of_lt (by omega)]; rfl)
    (by rw [Nat.zero_add]; exact r1) (by rw [Nat.zero_add]; exact r2) (by rw [Nat.zero_add]; exact r3)
    (fun j _ hj => by rw [ent.1]; exact hl j (by omega))
  refine ⟨k + 6, s', ?_, ?_⟩
  · rw [subEntry_run]; exact e1
  · rw [e2, ent.1]

end Ringo.Amd64
