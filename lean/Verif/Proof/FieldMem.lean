import Verif.Model.FieldMem
import Verif.Proof.FieldMont

/-! # Field operations on memory: the pointers may coincide -/

namespace Ringo

/-- The chain of `op` over two lists. -/
def chainOp (op : Nat → Nat → Nat → Nat × Nat) : List Nat → List Nat → Nat → List Nat × Nat
  | x :: xs, y :: ys, c =>
    let (z, c) := op x y c
    let (zs, c) := chainOp op xs ys c
    (z :: zs, c)
  | _, _, c => ([], c)

theorem chainOp_add : ∀ x y c, chainOp add64 x y c = addChain x y c
  | x :: xs, y :: ys, c => by simp only [chainOp, addChain, chainOp_add xs ys]
  | [], [], c => rfl
  | [], _ :: _, c => rfl
  | _ :: _, [], c => rfl

theorem chainOp_sub : ∀ x y c, chainOp sub64 x y c = subChain x y c
  | x :: xs, y :: ys, c => by simp only [chainOp, subChain, chainOp_sub xs ys]
  | [], [], c => rfl
  | [], _ :: _, c => rfl
  | _ :: _, [], c => rfl

/-- The `k` words of an operand from word `i` on. -/
def Operand.words (o : Operand) (m : Mem) (i k : Nat) : List Nat :=
  (List.range k).map fun j => o.word m (i + j)

theorem Operand.words_succ (o : Operand) (m : Mem) (i k : Nat) :
    o.words m i (k + 1) = o.word m i :: o.words m (i + 1) k := by
  unfold Operand.words
  rw [List.range_succ_eq_map, List.map_cons, List.map_map]
  congr 1
  apply List.map_congr_left
  intro j _
  simp only [Function.comp]
  congr 1
  omega

theorem Operand.words_write (o : Operand) (m : Mem) (z i w k : Nat) :
    o.words (m.write z i w) (i + 1) k = o.words m (i + 1) k := by
  unfold Operand.words
  apply List.map_congr_left
  intro j _
  cases o with
  | const l => rfl
  | ptr x =>
    simp only [Operand.word, Mem.write]
    by_cases hx : x = z
    · subst hx
      rw [Function.update_self, List.getD_eq_getElem?_getD, List.getD_eq_getElem?_getD,
        List.getElem?_set_ne (by omega)]
    · rw [Function.update_of_ne hx]

theorem Operand.words_ptr (m : Mem) (x k : Nat) (h : (m x).length = k) :
    (Operand.ptr x).words m 0 k = m x := by
  unfold Operand.words
  apply List.ext_getElem
  · simp [h]
  · intro i h1 h2
    simp only [List.getElem_map, List.getElem_range, Operand.word, Nat.zero_add]
    rw [List.getD_eq_getElem _ _ h2]

theorem Operand.words_const (m : Mem) (l : List Nat) (k : Nat) (h : l.length = k) :
    (Operand.const l).words m 0 k = l := by
  unfold Operand.words
  apply List.ext_getElem
  · simp [h]
  · intro i h1 h2
    simp only [List.getElem_map, List.getElem_range, Operand.word, Nat.zero_add]
    rw [List.getD_eq_getElem _ _ h2]

theorem memLoop_eq (op : Nat → Nat → Nat → Nat × Nat) (z : Nat) (x y : Operand) :
    ∀ (k i : Nat) (m : Mem) (c : Nat), (m z).length = i + k →
      memLoop op z x y k i m c =
        (Function.update m z ((m z).take i ++ (chainOp op (x.words m i k) (y.words m i k) c).1),
          (chainOp op (x.words m i k) (y.words m i k) c).2)
  | 0, i, m, c, h => by
    have e1 : x.words m i 0 = [] := rfl
    have e2 : y.words m i 0 = [] := rfl
    rw [e1, e2]
    simp only [memLoop, chainOp, List.append_nil]
    rw [List.take_of_length_le (by omega), Function.update_eq_self]
  | k + 1, i, m, c, h => by
    rw [Operand.words_succ, Operand.words_succ]
    simp only [memLoop, chainOp]
    have hl : ((m.write z i (op (x.word m i) (y.word m i) c).1) z).length = i + 1 + k := by
      simp only [Mem.write, Function.update_self, List.length_set]; omega
    rw [memLoop_eq op z x y k (i + 1) _ _ hl, Operand.words_write, Operand.words_write]
    congr 1
    simp only [Mem.write, Function.update_self, Function.update_idem]
    congr 1
    have hi : i < (m z).length := by omega
    have ht : ((m z).set i (op (x.word m i) (y.word m i) c).1).take (i + 1) =
        (m z).take i ++ [(op (x.word m i) (y.word m i) c).1] := by
      rw [List.take_add_one, List.take_set_of_le (Nat.le_refl i), List.getElem?_set_self hi]
      rfl
    rw [ht, List.append_assoc]
    rfl

theorem memStore_eq (z : Nat) (t : List Nat) : ∀ (k i : Nat) (m : Mem), (m z).length = i + k →
    memStore z t k i m = Function.update m z ((m z).take i ++ (List.range k).map fun j => t.getD (i + j) 0)
  | 0, i, m, h => by
    simp only [memStore, List.range_zero, List.map_nil, List.append_nil]
    rw [List.take_of_length_le (by omega), Function.update_eq_self]
  | k + 1, i, m, h => by
    simp only [memStore]
    have hl : ((m.write z i (t.getD i 0)) z).length = i + 1 + k := by
      simp only [Mem.write, Function.update_self, List.length_set]; omega
    rw [memStore_eq z t k (i + 1) _ hl]
    simp only [Mem.write, Function.update_self, Function.update_idem]
    congr 1
    have hi : i < (m z).length := by omega
    have ht : ((m z).set i (t.getD i 0)).take (i + 1) = (m z).take i ++ [t.getD i 0] := by
      rw [List.take_add_one, List.take_set_of_le (Nat.le_refl i), List.getElem?_set_self hi]
      rfl
    rw [ht, List.append_assoc, List.range_succ_eq_map, List.map_cons, List.map_map]
    congr 1
    simp only [List.singleton_append, Nat.add_zero]
    congr 1
    apply List.map_congr_left
    intro j _
    simp only [Function.comp]
    congr 1
    omega

theorem memStore_all (z : Nat) (t : List Nat) (m : Mem) {k : Nat} (h : (m z).length = k)
    (ht : t.length = k) : memStore z t k 0 m = Function.update m z t := by
  rw [memStore_eq z t k 0 m (by omega), List.take_zero, List.nil_append]
  congr 1
  have := Operand.words_const m t k ht
  exact this

namespace FieldPkg

variable {P : FieldPkg}

theorem memAdd_eq (m : Mem) (z : Nat) (x y : Operand) (hz : (m z).length = P.n) :
    memLoop add64 z x y P.n 0 m 0 =
      (Function.update m z (addChain (x.words m 0 P.n) (y.words m 0 P.n) 0).1,
        (addChain (x.words m 0 P.n) (y.words m 0 P.n) 0).2) := by
  rw [memLoop_eq _ _ _ _ _ _ _ _ (by omega), chainOp_add, List.take_zero, List.nil_append]

theorem memSub_eq (m : Mem) (z : Nat) (x y : Operand) (hz : (m z).length = P.n) :
    memLoop sub64 z x y P.n 0 m 0 =
      (Function.update m z (subChain (x.words m 0 P.n) (y.words m 0 P.n) 0).1,
        (subChain (x.words m 0 P.n) (y.words m 0 P.n) 0).2) := by
  rw [memLoop_eq _ _ _ _ _ _ _ _ (by omega), chainOp_sub, List.take_zero, List.nil_append]

theorem memSubQ_eq (m : Mem) (z : Nat) (hz : (m z).length = P.n) :
    (memLoop sub64 z (.ptr z) (.const P.q) P.n 0 m 0).1 =
      Function.update m z (subChain (m z) P.q 0).1 := by
  rw [memSub_eq m z _ _ hz, Operand.words_ptr m z _ hz, Operand.words_const m P.q P.n rfl]

theorem reduceAt_eq (m : Mem) (z : Nat) (hz : (m z).length = P.n) :
    P.reduceAt m z = Function.update m z (P.reduce (m z)) := by
  unfold reduceAt reduce
  split
  · exact memSubQ_eq m z hz
  · rw [Function.update_eq_self]

theorem addAt_eq (m : Mem) (z x y : Nat) (hz : (m z).length = P.n) (hx : (m x).length = P.n)
    (hy : (m y).length = P.n) (hl : (addChain (m x) (m y) 0).1.length = P.n) :
    P.addAt m z x y = Function.update m z (P.add (m x) (m y)) := by
  unfold addAt add
  rw [memAdd_eq m z _ _ hz, Operand.words_ptr m x _ hx, Operand.words_ptr m y _ hy]
  simp only
  split
  · rw [memSubQ_eq _ _ (by rw [Function.update_self]; exact hl), Function.update_self,
      Function.update_idem]
  · rw [reduceAt_eq _ _ (by rw [Function.update_self]; exact hl), Function.update_self,
      Function.update_idem]

theorem doubleAt_eq (m : Mem) (z x : Nat) : P.doubleAt m z x = P.addAt m z x x := rfl

theorem subAt_eq (m : Mem) (z x y : Nat) (hz : (m z).length = P.n) (hx : (m x).length = P.n)
    (hy : (m y).length = P.n) (hl : (subChain (m x) (m y) 0).1.length = P.n) :
    P.subAt m z x y = Function.update m z (P.sub (m x) (m y)) := by
  unfold subAt sub
  rw [memSub_eq m z _ _ hz, Operand.words_ptr m x _ hx, Operand.words_ptr m y _ hy]
  simp only
  split
  · have hz' : (Function.update m z (subChain (m x) (m y) 0).1 z).length = P.n := by
      rw [Function.update_self]; exact hl
    rw [memAdd_eq _ _ _ _ hz', Operand.words_ptr _ _ _ hz', Operand.words_const _ P.q P.n rfl,
      Function.update_self, Function.update_idem]
  · rfl

theorem negAt_eq (m : Mem) (z x : Nat) (hz : (m z).length = P.n) (hx : (m x).length = P.n) :
    P.negAt m z x = Function.update m z (P.neg (m x)) := by
  unfold negAt neg
  split
  · exact memStore_all z _ m hz (by simp)
  · rw [memSub_eq m z _ _ hz, Operand.words_ptr m x _ hx, Operand.words_const _ P.q P.n rfl]

theorem ciosRounds_length (h : P.Good) {x y : List Nat} (hx : x.length = P.n) (wx : Words x)
    (hy : y.length = P.n) (wy : Words y) :
    (y.tail.foldl (P.ciosNext x) (P.ciosFirst x (y.headD 0))).1.length = P.n := by
  rcases y with _ | ⟨y0, ys⟩
  · have := h.two_le; simp at hy; omega
  obtain ⟨_, _, _, l, w, b⟩ := ciosFirst_spec h hx wx wy.head
  obtain ⟨_, _, _, l', _⟩ := ciosLoop_spec h hx wx ys (P.ciosFirst x y0) wy.tail' l w b
  exact l'

theorem mulAt_eq (h : P.Good) (m : Mem) (z x y : Nat) (hz : (m z).length = P.n)
    (hx : (m x).length = P.n) (wx : Words (m x)) (hy : (m y).length = P.n) (wy : Words (m y))
    (hlt : wv (m y) < P.p) :
    P.mulAt m z x y = Function.update m z (P.mul (m x) (m y)) := by
  unfold mulAt mul
  by_cases hc : P.cios = true
  · rw [hc]
    simp only [if_true]
    unfold mulCios
    have l' := ciosRounds_length h hx wx hy wy
    simp only
    generalize (m y).tail.foldl (P.ciosNext (m x)) (P.ciosFirst (m x) ((m y).headD 0)) = r at l' ⊢
    split
    · rw [memSub_eq m z _ _ hz, Operand.words_const _ _ P.n l', Operand.words_const _ P.q P.n rfl]
    · rw [memStore_all z _ m hz l', reduceAt_eq _ _ (by rw [Function.update_self]; exact l'),
        Function.update_self, Function.update_idem]
  · have hc' : P.cios = false := by simpa using hc
    rw [hc']
    simp only [Bool.false_eq_true, if_false]
    unfold mulNoCarry
    have l' := ncRounds_length h (h.spare_mul hc') hx wx hy wy hlt
    simp only
    generalize (m x).tail.foldl (fun t v => P.ncReduce (ncNext v (m y) t))
      (P.ncReduce (ncFirst ((m x).headD 0) (m y))) = r at *
    rw [memStore_all z _ m hz l', reduceAt_eq _ _ (by rw [Function.update_self]; exact l'),
        Function.update_self, Function.update_idem]

end FieldPkg

end Ringo
