import Verif.Model.FieldVecOps
import Verif.Proof.FieldSmall

/-! The loops over vectors. -/

namespace Ringo.FieldPkg

variable {P : FieldPkg}

theorem elemPtr_inj (h2 : 2 ≤ P.n) {v i j : Nat} (h : P.elemPtr v i = P.elemPtr v j) : i = j := by
  unfold elemPtr at h
  exact Nat.eq_of_mul_eq_mul_left (by omega) (Nat.add_left_cancel h)

/-- The loops, for an operation that writes a function of the two elements it reads. -/
theorem vecLoop_spec (h2 : 2 ≤ P.n) {op : Mem → Nat → Nat → Nat → Mem} {res a b len : Nat}
    {A B C : Nat → List Nat → Prop}
    (hop : ∀ (m : Mem) (z x y i : Nat), (m z).length = P.n → A i (m x) → B i (m y) →
      ∃ w, C i w ∧ op m z x y = Function.update m z w)
    (ha : ∀ i j, i < j → j < len → P.elemPtr res i ≠ P.elemPtr a j)
    (hb : ∀ i j, i < j → j < len → P.elemPtr res i ≠ P.elemPtr b j) :
    ∀ (k i : Nat) (m : Mem), i + k = len →
      (∀ j, i ≤ j → j < len → (m (P.elemPtr res j)).length = P.n ∧ A j (m (P.elemPtr a j)) ∧ B j (m (P.elemPtr b j))) →
      (∀ j, i ≤ j → j < len → C j (P.vecLoop op res a b k i m (P.elemPtr res j))) ∧
      ∀ p, (∀ j, i ≤ j → j < len → p ≠ P.elemPtr res j) → P.vecLoop op res a b k i m p = m p := by
  intro k
  induction k with
  | zero => intro i m hi _; exact ⟨fun j h1 h3 => absurd h3 (by omega), fun p _ => rfl⟩
  | succ k ih =>
    intro i m hi hm
    obtain ⟨l0, a0, b0⟩ := hm i le_rfl (by omega)
    obtain ⟨w, hw, e⟩ := hop m (P.elemPtr res i) (P.elemPtr a i) (P.elemPtr b i) i l0 a0 b0
    rw [vecLoop, e]
    obtain ⟨i1, i2⟩ := ih (i + 1) (Function.update m (P.elemPtr res i) w) (by omega) (by
      intro j h1 h3
      obtain ⟨l1, a1, b1⟩ := hm j (by omega) h3
      rw [Function.update_of_ne (fun hx => absurd (elemPtr_inj h2 hx) (by omega)),
        Function.update_of_ne (ha i j (by omega) h3).symm, Function.update_of_ne (hb i j (by omega) h3).symm]
      exact ⟨l1, a1, b1⟩)
    refine ⟨fun j h1 h3 => ?_, fun p hp => ?_⟩
    · rcases Nat.eq_or_lt_of_le h1 with rfl | h1
      · rw [i2 _ fun j h1 _ hx => absurd (elemPtr_inj h2 hx) (by omega), Function.update_self]
        exact hw
      · exact i1 j h1 h3
    · rw [i2 p fun j h1 h3 => hp j (by omega) h3, Function.update_of_ne (hp i le_rfl (by omega))]

theorem scalarLoop_eq (res a b : Nat) : ∀ (k i : Nat) (m : Mem), P.scalarLoop res a b k i m =
    P.vecLoop (fun m z x _ => P.mulAt m z x b) res a a k i m
  | 0, _, _ => rfl
  | k + 1, i, m => by rw [scalarLoop, vecLoop, scalarLoop_eq res a b k]

end Ringo.FieldPkg
