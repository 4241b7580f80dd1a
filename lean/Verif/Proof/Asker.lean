import Verif.Spec.Asker
import Mathlib.Data.Fintype.BigOperators
import Mathlib.Data.Fintype.Pi
import Mathlib.Algebra.BigOperators.Ring.Finset
import Mathlib.Tactic.Ring
import Mathlib.Algebra.Order.BigOperators.Group.Finset
import Mathlib.Algebra.Module.NatInt
import Mathlib.Data.Set.Card

/-!
# Counting the functions on which a program is lucky
-/

namespace Ringo

open Finset

section
variable {X D α : Type} [Fintype X] [DecidableEq X] [Fintype D]

/-- What is known of the function after some calls. -/
abbrev RTable (X D : Type) : Type := X → Option D

/-- The functions that agree with what is known. -/
noncomputable def RTable.cons (τ : RTable X D) : Finset ((X → D)) :=
  open Classical in univ.filter fun h => ∀ q d, τ q = some d → h q = d

/-- The calls made. -/
noncomputable def RTable.dom (τ : RTable X D) : Finset (X) :=
  open Classical in univ.filter fun q => τ q ≠ none

/-- One more call. -/
noncomputable def RTable.add (τ : RTable X D) (q : X) (d : D) : RTable X D :=
  Function.update τ q (some d)

omit [Fintype X] [Fintype D] in
theorem RTable.add_same (τ : RTable X D) (q : X) (d : D) : τ.add q d q = some d := by
  unfold RTable.add; simp

omit [Fintype X] [Fintype D] in
theorem RTable.add_other (τ : RTable X D) {q q' : X} (d : D) (h : q' ≠ q) :
    τ.add q d q' = τ q' := by
  unfold RTable.add; simp [h]

theorem RTable.mem_cons {τ : RTable X D} {h : (X → D)} :
    h ∈ τ.cons ↔ ∀ q d, τ q = some d → h q = d := by
  unfold RTable.cons; simp

omit [DecidableEq X] [Fintype D] in
theorem RTable.mem_dom {τ : RTable X D} {q : X} : q ∈ τ.dom ↔ τ q ≠ none := by
  unfold RTable.dom; simp

omit [Fintype D] in
theorem RTable.dom_add (τ : RTable X D) (q : X) (d : D) : (τ.add q d).dom.card ≤ τ.dom.card + 1 := by
  classical
  refine (card_le_card (t := insert q τ.dom) ?_).trans (card_insert_le _ _)
  intro q' hq'
  rw [RTable.mem_dom] at hq'
  rw [mem_insert, RTable.mem_dom]
  by_cases h : q' = q
  · exact .inl h
  · rw [τ.add_other d h] at hq'
    exact .inr hq'

theorem RTable.mem_cons_add {τ : RTable X D} {q : X} (hq : τ q = none) {d : D}
    {h : (X → D)} : h ∈ (τ.add q d).cons ↔ h ∈ τ.cons ∧ h q = d := by
  rw [RTable.mem_cons, RTable.mem_cons]
  constructor
  · intro h1
    refine ⟨fun q' d' h2 => h1 q' d' ?_, h1 q d (τ.add_same q d)⟩
    rw [τ.add_other d (by rintro rfl; rw [hq] at h2; cases h2), h2]
  · rintro ⟨h1, h2⟩ q' d' h3
    by_cases h4 : q' = q
    · subst h4
      rw [τ.add_same] at h3
      cases h3
      exact h2
    · rw [τ.add_other d h4] at h3
      exact h1 q' d' h3

/-- A call not made before has every result equally often. -/
theorem RTable.card_add (τ : RTable X D) {q : X} (hq : τ q = none) (d d' : D) :
    (τ.add q d).cons.card = (τ.add q d').cons.card := by
  classical
  have key : ∀ d d' : D, (τ.add q d).cons.card ≤ (τ.add q d').cons.card := by
    intro d d'
    refine card_le_card_of_injOn (fun h => Function.update h q d') ?_ ?_
    · intro h hh
      rw [mem_coe, RTable.mem_cons_add hq] at hh
      rw [mem_coe, RTable.mem_cons_add hq, RTable.mem_cons]
      refine ⟨fun q' e h1 => ?_, by simp⟩
      have : q' ≠ q := by rintro rfl; rw [hq] at h1; cases h1
      show Function.update h q d' q' = e
      rw [Function.update_of_ne this]
      exact RTable.mem_cons.1 hh.1 q' e h1
    · intro h hh h' hh' he
      rw [mem_coe, RTable.mem_cons_add hq] at hh hh'
      funext q'
      by_cases h1 : q' = q
      · subst h1; rw [hh.2, hh'.2]
      · have := congrFun he q'
        simp only [Function.update_of_ne h1] at this
        exact this
  exact le_antisymm (key d d') (key d' d)

theorem RTable.card_split (τ : RTable X D) {q : X} (hq : τ q = none) :
    τ.cons.card = ∑ d : D, (τ.add q d).cons.card := by
  classical
  have : τ.cons = univ.biUnion (fun d : D => (τ.add q d).cons) := by
    ext h
    rw [mem_biUnion]
    constructor
    · intro h1
      exact ⟨h q, mem_univ _, (RTable.mem_cons_add hq).2 ⟨h1, rfl⟩⟩
    · rintro ⟨d, -, h1⟩
      exact ((RTable.mem_cons_add hq).1 h1).1
  rw [this, card_biUnion]
  intro d _ d' _ hd
  rw [Function.onFun, disjoint_left]
  intro h h1 h2
  rw [RTable.mem_cons_add hq] at h1 h2
  exact hd (h1.2.symm.trans h2.2)

theorem RTable.card_mul (τ : RTable X D) {q : X} (hq : τ q = none) (d : D) :
    (τ.add q d).cons.card * Fintype.card (D) = τ.cons.card := by
  rw [τ.card_split hq, sum_congr rfl (fun d' _ => τ.card_add hq d' d), sum_const, card_univ, smul_eq_mul,
    mul_comm]

/-- Some new call has a bad result. -/
def Asker.Hits (bad : RTable X D → X → Finset (D)) (h : (X → D)) :
    Asker X D α → RTable X D → Prop
  | .answer _, _ => False
  | .ask q k, τ => (τ q = none ∧ h q ∈ bad τ q) ∨ (k (h q)).Hits bad h (τ.add q (h q))

/-- What is known in the end. -/
noncomputable def Asker.table (h : (X → D)) : Asker X D α → RTable X D → RTable X D
  | .answer _, τ => τ
  | .ask q k, τ => (k (h q)).table h (τ.add q (h q))

omit [Fintype X] [Fintype D] in
theorem RTable.add_known {τ : RTable X D} {q : X} {d : D} (h : τ q = some d) : τ.add q d = τ := by
  funext q'
  by_cases h1 : q' = q
  · subst h1; rw [τ.add_same, h]
  · rw [τ.add_other d h1]

open Classical in
/-- If every new call has few bad results, few functions give one. -/
theorem Asker.card_hits [hD : Nonempty D] (bad : RTable X D → X → Finset (D)) (T β : Nat)
    (hbad : ∀ τ q, τ.dom.card ≤ T → (bad τ q).card ≤ β) (A : Asker X D α) :
    ∀ (m : Nat) (τ : RTable X D), A.AtMost m → τ.dom.card + m ≤ T →
      (τ.cons.filter (fun h => A.Hits bad h τ)).card * Fintype.card (D) ≤ m * β * τ.cons.card := by
  induction A with
  | answer a =>
    intro m τ _ _
    have : τ.cons.filter (fun h => (Asker.answer a : Asker X D α).Hits bad h τ) = ∅ :=
      filter_eq_empty_iff.2 (fun _ _ h => h)
    rw [this]
    simp
  | ask q k ih =>
    intro m τ hm hT
    cases m with
    | zero => exact hm.elim
    | succ m =>
    have hk : ∀ d, (k d).AtMost m := hm
    cases hq : τ q with
    | some d =>
      have h1 := ih d m τ (hk d) (by omega)
      have h2 : τ.cons.filter (fun h => (Asker.ask q k).Hits bad h τ) =
          τ.cons.filter (fun h => (k d).Hits bad h τ) := by
        apply filter_congr
        intro h hh
        have h3 := RTable.mem_cons.1 hh q d hq
        show (τ q = none ∧ h q ∈ bad τ q) ∨ (k (h q)).Hits bad h (τ.add q (h q)) ↔ (k d).Hits bad h τ
        rw [hq, h3, RTable.add_known hq]
        exact ⟨fun h => h.resolve_left (fun h => by cases h.1), .inr⟩
      rw [h2]
      refine h1.trans (Nat.mul_le_mul_right _ (Nat.mul_le_mul_right _ (Nat.le_succ m)))
    | none =>
      obtain ⟨d0⟩ := hD
      set c := (τ.add q d0).cons.card with hc
      have hcc : ∀ d, (τ.add q d).cons.card = c := fun d => τ.card_add hq d d0
      have hcm : c * Fintype.card (D) = τ.cons.card := τ.card_mul hq d0
      have hsub : τ.cons.filter (fun h => (Asker.ask q k).Hits bad h τ) ⊆
          (bad τ q).biUnion (fun d => (τ.add q d).cons) ∪
          univ.biUnion (fun d => (τ.add q d).cons.filter (fun h => (k d).Hits bad h (τ.add q d))) := by
        intro h hh
        rw [mem_filter] at hh
        have h1 : h ∈ (τ.add q (h q)).cons := (RTable.mem_cons_add hq).2 ⟨hh.1, rfl⟩
        rw [mem_union, mem_biUnion, mem_biUnion]
        rcases hh.2 with h2 | h2
        · exact .inl ⟨h q, h2.2, h1⟩
        · exact .inr ⟨h q, mem_univ _, mem_filter.2 ⟨h1, h2⟩⟩
      have h1 := (card_le_card hsub).trans (card_union_le _ _)
      have h2 : ((bad τ q).biUnion (fun d => (τ.add q d).cons)).card ≤ β * c := by
        refine card_biUnion_le.trans ?_
        rw [sum_congr rfl (fun d _ => hcc d), sum_const, smul_eq_mul]
        exact Nat.mul_le_mul_right _ (hbad τ q (by omega))
      have h3 : (univ.biUnion (fun d => (τ.add q d).cons.filter
          (fun h => (k d).Hits bad h (τ.add q d)))).card * Fintype.card (D) ≤
          m * β * τ.cons.card := by
        refine (Nat.mul_le_mul_right _ card_biUnion_le).trans ?_
        rw [sum_mul]
        refine (sum_le_sum (fun d _ => ih d m (τ.add q d) (hk d)
          (by have := τ.dom_add q d; omega))).trans ?_
        rw [← mul_sum, sum_congr rfl (fun d _ => hcc d), sum_const, card_univ, smul_eq_mul, ← hcm,
          mul_comm c]
      calc _ ≤ (((bad τ q).biUnion (fun d => (τ.add q d).cons)).card + (univ.biUnion (fun d =>
              (τ.add q d).cons.filter (fun h => (k d).Hits bad h (τ.add q d)))).card) *
              Fintype.card (D) := Nat.mul_le_mul_right _ h1
        _ ≤ β * c * Fintype.card (D) + m * β * τ.cons.card := by
            rw [add_mul]; exact Nat.add_le_add (Nat.mul_le_mul_right _ h2) h3
        _ = (m + 1) * β * τ.cons.card := by rw [mul_assoc, hcm]; ring

/-- What holds of what is known, and stays when a call has no bad result, holds in the end. -/
theorem Asker.table_inv (bad : RTable X D → X → Finset (D)) (h : (X → D))
    (P : RTable X D → Prop) (hP : ∀ τ q d, P τ → τ q = none → d ∉ bad τ q → P (τ.add q d)) (A : Asker X D α) :
    ∀ τ, h ∈ τ.cons → P τ → ¬ A.Hits bad h τ → P (A.table h τ) := by
  induction A with
  | answer a => intro τ _ h1 _; exact h1
  | ask q k ih =>
    intro τ hc h1 h2
    unfold Asker.Hits at h2
    rw [not_or] at h2
    unfold Asker.table
    cases hq : τ q with
    | none =>
      exact ih _ _ ((RTable.mem_cons_add hq).2 ⟨hc, rfl⟩)
        (hP τ q _ h1 hq (fun h3 => h2.1 ⟨hq, h3⟩)) h2.2
    | some d =>
      have h3 := RTable.mem_cons.1 hc q d hq
      have h4 : τ.add q (h q) = τ := RTable.add_known (by rw [hq, h3])
      have h5 := h2.2
      rw [h4] at h5 ⊢
      exact ih _ _ hc h1 h5

/-- First one program, then another. -/
def Asker.bind {β : Type} : Asker X D α → (α → Asker X D β) → Asker X D β
  | .answer a, f => f a
  | .ask q k, f => .ask q (fun d => (k d).bind f)

omit [Fintype X] [DecidableEq X] [Fintype D] in
theorem Asker.bind_atMost {β : Type} {f : α → Asker X D β} {m' : Nat} (hf : ∀ a, (f a).AtMost m')
    (A : Asker X D α) : ∀ m, A.AtMost m → (A.bind f).AtMost (m + m') := by
  have mono : ∀ (B : Asker X D β) (i j : Nat), i ≤ j → B.AtMost i → B.AtMost j := by
    intro B
    induction B with
    | answer a => intro i j _ _; cases j <;> trivial
    | ask q k ih =>
      intro i j hij hB
      cases i with
      | zero => exact hB.elim
      | succ i =>
        cases j with
        | zero => omega
        | succ j => exact fun d => ih d i j (by omega) (hB d)
  induction A with
  | answer a => intro m _; exact mono _ _ _ (by omega) (hf a)
  | ask q k ih =>
    intro m hm
    cases m with
    | zero => exact hm.elim
    | succ m =>
      rw [show m + 1 + m' = (m + m') + 1 by omega]
      exact fun d => ih d m (hm d)

omit [Fintype X] [Fintype D] in
theorem Asker.bind_table {β : Type} (f : α → Asker X D β) (h : (X → D)) (A : Asker X D α) :
    ∀ τ, (A.bind f).table h τ = (f (A.run h)).table h (A.table h τ) := by
  induction A with
  | answer a => intro τ; rfl
  | ask q k ih => intro τ; exact ih _ _

open Classical in
/-- A program that makes at most `m` calls and then names an argument finds one at which the function has a bad
value for few functions only. -/
theorem Asker.card_names [Nonempty D] (bad : X → Finset D) (β : Nat) (hbad : ∀ q, (bad q).card ≤ β) (A : Asker X D α)
    (m : Nat) (hA : A.AtMost m) (out : α → Option X) :
    (univ.filter (fun h : X → D => ∃ q, out (A.run h) = some q ∧ h q ∈ bad q)).card * Fintype.card D ≤
      (m + 1) * β * Fintype.card (X → D) := by
  let f : α → Asker X D α := fun a => match out a with
    | some q => .ask q (fun _ => .answer a)
    | none => .answer a
  have hf : ∀ a, (f a).AtMost 1 := by
    intro a
    show Asker.AtMost 1 (match out a with
      | some q => .ask q (fun _ => .answer a)
      | none => .answer a)
    cases out a with
    | none => trivial
    | some q => intro d; trivial
  let τ0 : RTable X D := fun _ => none
  have hτ0 : ∀ h : X → D, h ∈ τ0.cons := fun h => RTable.mem_cons.2 (fun q d h1 => by cases h1)
  have hu : τ0.cons = univ := eq_univ_iff_forall.2 hτ0
  have hd : τ0.dom.card = 0 := card_eq_zero.2 (eq_empty_of_forall_notMem (fun q hq => RTable.mem_dom.1 hq rfl))
  have key := Asker.card_hits (fun _ q => bad q) (m + 1) β (fun _ q _ => hbad q) (A.bind f) (m + 1) τ0
    (Asker.bind_atMost hf A m hA) (by omega)
  rw [hu, card_univ] at key
  refine le_trans (Nat.mul_le_mul_right _ (card_le_card ?_)) key
  intro h hh
  rw [mem_filter] at hh ⊢
  refine ⟨mem_univ _, ?_⟩
  obtain ⟨q, hq, hb⟩ := hh.2
  by_contra hn
  have inv := Asker.table_inv (fun _ q => bad q) h (fun τ => ∀ q d, τ q = some d → d ∉ bad q)
    (by
      intro τ q d h1 _ h3 q' d' h4
      by_cases h5 : q' = q
      · subst h5
        rw [τ.add_same] at h4
        cases h4
        exact h3
      · rw [τ.add_other d h5] at h4
        exact h1 q' d' h4) (A.bind f) τ0 (hτ0 h) (fun q d h1 => by cases h1) hn
  refine inv q (h q) ?_ hb
  rw [Asker.bind_table]
  have : f (A.run h) = .ask q (fun _ => .answer (A.run h)) := by
    show (match out (A.run h) with
      | some q => Asker.ask q (fun _ => .answer (A.run h))
      | none => .answer (A.run h)) = _
    rw [hq]
  rw [this]
  exact RTable.add_same _ _ _

/-- The same with predicates. -/
theorem Asker.ncard_names [Nonempty D] (bad : X → D → Prop) (β : Nat) (hbad : ∀ q, {d | bad q d}.ncard ≤ β)
    (A : Asker X D α) (m : Nat) (hA : A.AtMost m) (out : α → Option X) :
    {h : X → D | ∃ q, out (A.run h) = some q ∧ bad q (h q)}.ncard * Fintype.card D ≤
      (m + 1) * β * Fintype.card (X → D) := by
  classical
  refine le_trans (Nat.mul_le_mul_right _ ?_) (A.card_names (fun q => univ.filter (bad q)) β (fun q => ?_) m hA out)
  · rw [← Set.ncard_coe_finset]
    refine Set.ncard_le_ncard (fun h hh => ?_) (Set.toFinite _)
    obtain ⟨q, e, hb⟩ := hh
    rw [mem_coe, mem_filter]
    exact ⟨mem_univ _, q, e, mem_filter.2 ⟨mem_univ _, hb⟩⟩
  · rw [← Set.ncard_coe_finset]
    refine le_trans (Set.ncard_le_ncard (fun d hd => ?_) (Set.toFinite _)) (hbad q)
    rw [mem_coe, mem_filter] at hd
    exact hd.2

end

end Ringo
