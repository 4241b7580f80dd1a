import Verif.Model.FieldSmall
import Verif.Proof.FieldMem
import Verif.Proof.FieldMont

/-!
# The small functions of the portable field code
-/

namespace Ringo.FieldPkg

variable {P : FieldPkg}

theorem addAt_mont (h : P.Good) (m : Mem) (z x y : Nat) {a b : ZMod P.p} (hz : (m z).length = P.n)
    (hx : MontForm P.p P.n (m x) a) (hy : MontForm P.p P.n (m y) b) :
    ∃ w, MontForm P.p P.n w (a + b) ∧ P.addAt m z x y = Function.update m z w := by
  have hl := (addChain_spec (m x) (m y) 0 hx.words hy.words (hx.len.trans hy.len.symm) (by omega)).2.1
  exact ⟨_, mont_add h hx hy, addAt_eq m z x y hz hx.len hy.len (hl.trans hx.len)⟩

theorem subAt_mont (h : P.Good) (m : Mem) (z x y : Nat) {a b : ZMod P.p} (hz : (m z).length = P.n)
    (hx : MontForm P.p P.n (m x) a) (hy : MontForm P.p P.n (m y) b) :
    ∃ w, MontForm P.p P.n w (a - b) ∧ P.subAt m z x y = Function.update m z w := by
  have hl := (subChain_spec (m x) (m y) 0 hx.words hy.words (hx.len.trans hy.len.symm) (by omega)).2.1
  exact ⟨_, mont_sub h hx hy, subAt_eq m z x y hz hx.len hy.len (hl.trans hx.len)⟩

theorem mulAt_mont (h : P.Good) (m : Mem) (z x y : Nat) {a b : ZMod P.p} (hz : (m z).length = P.n)
    (hx : MontForm P.p P.n (m x) a) (hy : MontForm P.p P.n (m y) b) :
    ∃ w, MontForm P.p P.n w (a * b) ∧ P.mulAt m z x y = Function.update m z w :=
  ⟨_, mont_mul' h hx hy, mulAt_eq h m z x y hz hx.len hx.words hy.len hy.words hy.lt⟩

section
variable (h : P.Good) (m : Mem) {x t : Nat} (hxt : x ≠ t) {a : ZMod P.p}
  (hx : MontForm P.p P.n (m x) a)
include h hxt hx

theorem mulBy3At_mont : ∃ w, MontForm P.p P.n w (3 * a) ∧
    P.mulBy3At m x t = Function.update (Function.update m t (m x)) x w := by
  have hx0 : MontForm P.p P.n (copyAt m t x x) a := by
    rw [copyAt, Function.update_of_ne hxt]; exact hx
  have ht0 : MontForm P.p P.n (copyAt m t x t) a := by
    rw [copyAt, Function.update_self]; exact hx
  obtain ⟨w1, f1, e1⟩ := addAt_mont h (copyAt m t x) x x x hx0.len hx0 hx0
  obtain ⟨w2, f2, e2⟩ := addAt_mont h (Function.update (copyAt m t x) x w1) x x t (a := a + a) (b := a)
    (by rw [Function.update_self]; exact f1.len) (by rw [Function.update_self]; exact f1)
    (by rw [Function.update_of_ne hxt.symm]; exact ht0)
  refine ⟨w2, by rw [show 3 * a = a + a + a by ring]; exact f2, ?_⟩
  rw [mulBy3At]
  rw [doubleAt_eq, e1, e2, Function.update_idem, copyAt]

theorem mulBy5At_mont : ∃ w, MontForm P.p P.n w (5 * a) ∧
    P.mulBy5At m x t = Function.update (Function.update m t (m x)) x w := by
  have hx0 : MontForm P.p P.n (copyAt m t x x) a := by
    rw [copyAt, Function.update_of_ne hxt]; exact hx
  have ht0 : MontForm P.p P.n (copyAt m t x t) a := by
    rw [copyAt, Function.update_self]; exact hx
  obtain ⟨w1, f1, e1⟩ := addAt_mont h (copyAt m t x) x x x hx0.len hx0 hx0
  have f1' : MontForm P.p P.n (Function.update (copyAt m t x) x w1 x) (a + a) := by
    rw [Function.update_self]; exact f1
  obtain ⟨w2, f2, e2⟩ := addAt_mont h (Function.update (copyAt m t x) x w1) x x x f1'.len f1' f1'
  rw [Function.update_idem] at e2
  obtain ⟨w3, f3, e3⟩ := addAt_mont h (Function.update (copyAt m t x) x w2) x x t (a := a + a + (a + a)) (b := a)
    (by rw [Function.update_self]; exact f2.len) (by rw [Function.update_self]; exact f2)
    (by rw [Function.update_of_ne hxt.symm]; exact ht0)
  refine ⟨w3, by rw [show 5 * a = a + a + (a + a) + a by ring]; exact f3, ?_⟩
  rw [mulBy5At]
  rw [doubleAt_eq, doubleAt_eq, e1, e2, e3, Function.update_idem, copyAt]

theorem mulBy13At_mont {c : List Nat} (hc : MontForm P.p P.n c 13) : ∃ w, MontForm P.p P.n w (13 * a) ∧
    P.mulBy13At c m x t = Function.update (Function.update m t c) x w := by
  have hx0 : MontForm P.p P.n (Function.update m t c x) a := by
    rw [Function.update_of_ne hxt]; exact hx
  have ht0 : MontForm P.p P.n (Function.update m t c t) 13 := by
    rw [Function.update_self]; exact hc
  obtain ⟨w1, f1, e1⟩ := mulAt_mont h (Function.update m t c) x x t hx0.len hx0 ht0
  refine ⟨w1, by rw [mul_comm]; exact f1, ?_⟩
  rw [mulBy13At]
  exact e1

end

theorem butterflyAt_mont (h : P.Good) (m : Mem) {x y t : Nat} (hxt : x ≠ t) (hyt : y ≠ t) {a b : ZMod P.p}
    (hx : MontForm P.p P.n (m x) a) (hy : MontForm P.p P.n (m y) b) :
    ∃ v w, MontForm P.p P.n v (a + b) ∧ MontForm P.p P.n w (a - if x = y then a + b else b) ∧
      P.butterflyAt m x y t = Function.update (Function.update (Function.update m t (m x)) x v) y w := by
  have hx0 : MontForm P.p P.n (copyAt m t x x) a := by
    rw [copyAt, Function.update_of_ne hxt]; exact hx
  have hy0 : MontForm P.p P.n (copyAt m t x y) b := by
    rw [copyAt, Function.update_of_ne hyt]; exact hy
  have ht0 : MontForm P.p P.n (copyAt m t x t) a := by
    rw [copyAt, Function.update_self]; exact hx
  obtain ⟨v, f1, e1⟩ := addAt_mont h (copyAt m t x) x x y hx0.len hx0 hy0
  have hy1 : MontForm P.p P.n (Function.update (copyAt m t x) x v y) (if x = y then a + b else b) := by
    by_cases e : x = y
    · rw [if_pos e, ← e, Function.update_self]; exact f1
    · rw [if_neg e, Function.update_of_ne (Ne.symm e)]; exact hy0
  obtain ⟨w, f2, e2⟩ := subAt_mont h (Function.update (copyAt m t x) x v) y t y (a := a) hy1.len
    (by rw [Function.update_of_ne hxt.symm]; exact ht0) hy1
  refine ⟨v, w, f1, f2, ?_⟩
  rw [butterflyAt]
  rw [e1, e2, copyAt]

end Ringo.FieldPkg
