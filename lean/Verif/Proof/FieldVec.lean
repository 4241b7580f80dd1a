import Verif.Model.FieldVec
import Verif.Spec.FieldVec

/-! Reading and writing vectors. -/

namespace Ringo

open FieldPkg

theorem readFull_ok {r : List UInt8} {k : Nat} (h : k ≤ r.length) : readFull r k = (r.take k, r.drop k, none) := by
  simp [readFull, h]

theorem readFull_append {a b : List UInt8} : readFull (a ++ b) a.length = (a, b, none) := by
  simp [readFull]

theorem putBE32_length (v : Nat) : (putBE32 v).length = 4 := by simp [putBE32]

theorem putBE32_val (v : Nat) : beVal (putBE32 v) = v % 2 ^ 32 := by
  simp only [putBE32, beVal, List.range, List.range.loop, List.map_cons, List.map_nil, List.foldl_cons,
    List.foldl_nil, UInt8.toNat_ofNat']
  omega

theorem putBE32_mod (v : Nat) : putBE32 v = putBE32 (v % 2 ^ 32) := by
  apply bigEndian_inj (by simp [putBE32_length])
  rw [← beVal_eq_bigEndian, ← beVal_eq_bigEndian, putBE32_val, putBE32_val, Nat.mod_mod]

namespace FieldPkg

variable {P : FieldPkg}

/-- What one element of the encoding is read as. -/
theorem element_of_bytes (h : P.Good) {c : List UInt8} (hl : c.length = 8 * P.n) :
    (∃ (w : List Nat) (a : ZMod P.p), P.element c = some w ∧ MontForm P.p P.n w a ∧ bigEndian c = a.val) ∨
      (P.element c = none ∧ ¬ bigEndian c < P.p) := by
  have hc := C104_canonical h c
  have he : P.setBytesCanonical c = P.element c := by
    unfold setBytesCanonical
    rw [if_neg (not_not.2 hl)]
  rw [he] at hc
  by_cases hlt : bigEndian c < P.p
  · obtain ⟨w, hw, hm⟩ := hc.1 ⟨hl, hlt⟩
    exact Or.inl ⟨w, _, hw, hm, by rw [ZMod.val_natCast, Nat.mod_eq_of_lt hlt]⟩
  · exact Or.inr ⟨hc.2 fun hx => hlt hx.2, hlt⟩

theorem element_of_val (h : P.Good) {c : List UInt8} (hl : c.length = 8 * P.n) {a : ZMod P.p}
    (ha : bigEndian c = a.val) : ∃ w, P.element c = some w ∧ MontForm P.p P.n w a := by
  have := Fact.mk h.prime
  rcases element_of_bytes h hl with ⟨w, b, h1, h2, h3⟩ | ⟨_, h2⟩
  · have : a = b := ZMod.val_injective _ (ha ▸ h3)
    exact ⟨w, h1, this ▸ h2⟩
  · exact absurd (ha ▸ a.val_lt) h2

theorem vecReadLoop_ok (h : P.Good) (len : Nat) : ∀ (l : List (ZMod P.p)) (body : List (List UInt8))
    (_ : List.Forall₂ (fun (a : ZMod P.p) (c : List UInt8) => c.length = 8 * P.n ∧ bigEndian c = a.val) l body)
    (i : Nat) (rest : List UInt8) (total : Nat) (acc : List (List Nat)),
    ∃ w, VecForm P.p P.n w l ∧ P.vecReadLoop len l.length i (body.flatten ++ rest) total acc =
      ⟨total + body.flatten.length, none, acc ++ w, rest⟩ := by
  intro l
  induction l with
  | nil =>
    intro body hb i rest total acc
    cases hb
    exact ⟨[], List.Forall₂.nil, by simp [vecReadLoop]⟩
  | cons a l ih =>
    intro body hb i rest total acc
    cases hb with
    | @cons _ c _ body hc hb =>
      obtain ⟨w, h1, h2⟩ := element_of_val h hc.1 hc.2
      obtain ⟨ws, h3, h4⟩ := ih body hb (i + 1) rest (total + c.length) (acc ++ [w])
      refine ⟨w :: ws, List.Forall₂.cons h2 h3, ?_⟩
      have : readFull ((c :: body).flatten ++ rest) (8 * P.n) = (c, body.flatten ++ rest, none) := by
        rw [← hc.1, List.flatten_cons, List.append_assoc, readFull_append]
      rw [List.length_cons, vecReadLoop, this]
      simp only [reduceCtorEq, if_false, ne_eq, not_true_eq_false, h1]
      rw [h4]
      simp [Nat.add_assoc]

theorem vecReadLoop_only (h : P.Good) (len : Nat) : ∀ (k i : Nat) (r : List UInt8) (total : Nat)
    (acc : List (List Nat)), (P.vecReadLoop len k i r total acc).err = none →
    ∃ (l : List (ZMod P.p)) (body : List (List UInt8)) (rest : List UInt8), l.length = k ∧
      r = body.flatten ++ rest ∧
      List.Forall₂ (fun (a : ZMod P.p) (c : List UInt8) => c.length = 8 * P.n ∧ bigEndian c = a.val) l body := by
  intro k
  induction k with
  | zero => intro i r _ _ _; exact ⟨[], [], r, rfl, rfl, List.Forall₂.nil⟩
  | succ k ih =>
    intro i r total acc hx
    rw [vecReadLoop] at hx
    by_cases hr : 8 * P.n ≤ r.length
    · rw [readFull_ok hr] at hx
      simp only [reduceCtorEq, if_false, ne_eq, not_true_eq_false] at hx
      have hl : (r.take (8 * P.n)).length = 8 * P.n := by simp [hr]
      rcases element_of_bytes h hl with ⟨w, a, h1, _, h3⟩ | ⟨h1, _⟩
      · rw [h1] at hx
        obtain ⟨l, body, rest, e1, e2, e3⟩ := ih _ _ _ _ hx
        refine ⟨a :: l, r.take (8 * P.n) :: body, rest, by simp [e1], ?_, List.Forall₂.cons ⟨hl, h3⟩ e3⟩
        rw [List.flatten_cons, List.append_assoc, ← e2, List.take_append_drop]
      · rw [h1] at hx
        exact absurd hx (by simp)
    · simp only [readFull, hr, if_false] at hx
      split_ifs at hx <;> simp_all

theorem vecRead_ok (h : P.Good) (old : List (List Nat)) {l : List (ZMod P.p)} {e : List UInt8}
    (he : VecBytes P.p P.n l e) (rest : List UInt8) :
    ∃ w, VecForm P.p P.n w l ∧ P.vecRead old (e ++ rest) = ⟨e.length, none, w, rest⟩ := by
  obtain ⟨hd, body, rfl, h4, hlen, hb⟩ := he
  obtain ⟨w, h1, h2⟩ := vecReadLoop_ok h l.length l body hb 0 rest 4 []
  refine ⟨w, h1, ?_⟩
  have : readFull (hd ++ body.flatten ++ rest) 4 = (hd, body.flatten ++ rest, none) := by
    rw [← h4, List.append_assoc, readFull_append]
  rw [vecRead, this]
  simp only [ne_eq, not_true_eq_false, if_false]
  rw [beVal_eq_bigEndian, hlen, h2]
  simp [h4]

theorem vecRead_only (h : P.Good) (old : List (List Nat)) {r : List UInt8}
    (hr : (P.vecRead old r).err = none) :
    ∃ (l : List (ZMod P.p)) (e rest : List UInt8), VecBytes P.p P.n l e ∧ r = e ++ rest := by
  rw [vecRead] at hr
  by_cases h4 : 4 ≤ r.length
  · rw [readFull_ok h4] at hr
    simp only [ne_eq, not_true_eq_false, if_false] at hr
    obtain ⟨l, body, rest, e1, e2, e3⟩ := vecReadLoop_only h _ _ _ _ _ _ hr
    refine ⟨l, r.take 4 ++ body.flatten, rest, ⟨_, body, rfl, by simp [h4], ?_, e3⟩, ?_⟩
    · rw [← beVal_eq_bigEndian, e1]
    · rw [List.append_assoc, ← e2, List.take_append_drop]
  · simp only [readFull, h4, if_false] at hr
    split_ifs at hr <;> simp_all

theorem vecWrite_body (h : P.Good) {w : List (List Nat)} {l : List (ZMod P.p)} (hw : VecForm P.p P.n w l) :
    List.Forall₂ (fun (a : ZMod P.p) (c : List UInt8) => c.length = 8 * P.n ∧ bigEndian c = a.val) l
      (w.map P.marshal) := by
  induction hw with
  | nil => exact List.Forall₂.nil
  | cons h1 _ ih => exact List.Forall₂.cons (C72_marshal h h1) ih

end FieldPkg

end Ringo
