import Verif.Model.Pool
import Mathlib.Data.List.Nodup
import Mathlib.Logic.Function.Basic
import Mathlib.Tactic.Basic
import Mathlib.Tactic.SplitIfs

/-! Proofs about goroutines that share a pool of buffers. -/

namespace Ringo

section
variable {F : Type}

/-- Replacing all coefficients of a polynomial. -/
def PHeap.setC (h : PHeap F) (q : Nat) (r : Nat → F) : PHeap F :=
  { h with c := Function.update h.c q r }

/-- Replacing the flag of a polynomial. -/
def PHeap.setF (h : PHeap F) (q : Nat) (b : Bool) : PHeap F :=
  { h with f := Function.update h.f q b }

/-- Two memories have the same polynomials `q` with `A q`. -/
def PHeap.Agree (A : Nat → Prop) (h h' : PHeap F) : Prop :=
  ∀ q, A q → h.c q = h'.c q ∧ h.f q = h'.f q

theorem PHeap.Agree.setC {A : Nat → Prop} {h h' : PHeap F} (k : PHeap.Agree A h h') (q : Nat) (r : Nat → F) :
    PHeap.Agree A (h.setC q r) (h'.setC q r) := by
  intro q' hq'
  refine ⟨?_, (k q' hq').2⟩
  by_cases e : q' = q
  · subst e; simp [PHeap.setC]
  · simp [PHeap.setC, Function.update_of_ne e, (k q' hq').1]

theorem PHeap.Agree.setF {A : Nat → Prop} {h h' : PHeap F} (k : PHeap.Agree A h h') (q : Nat) (b : Bool) :
    PHeap.Agree A (h.setF q b) (h'.setF q b) := by
  intro q' hq'
  refine ⟨(k q' hq').1, ?_⟩
  by_cases e : q' = q
  · subst e; simp [PHeap.setF]
  · simp [PHeap.setF, Function.update_of_ne e, (k q' hq').2]

theorem PHeap.Agree.fill {A : Nat → Prop} {h h' : PHeap F} (k : PHeap.Agree A h h') (q : Nat) (r : Nat → F)
    (b : Bool) : PHeap.Agree (fun a => a = q ∨ A a) ((h.setC q r).setF q b) ((h'.setC q r).setF q b) := by
  intro q' hq'
  by_cases e : q' = q
  · subst e; simp [PHeap.setF, PHeap.setC]
  · have := k q' (hq'.resolve_left e)
    simp [PHeap.setF, PHeap.setC, Function.update_of_ne e, this.1, this.2]

theorem PHeap.Agree.mono {A B : Nat → Prop} {h h' : PHeap F} (k : PHeap.Agree A h h')
    (hAB : ∀ q, B q → A q) : PHeap.Agree B h h' := fun q hq => k q (hAB q hq)

theorem PHeap.Agree.symm {A : Nat → Prop} {h h' : PHeap F} (k : PHeap.Agree A h h') :
    PHeap.Agree A h' h := fun q hq => ⟨(k q hq).1.symm, (k q hq).2.symm⟩

theorem PHeap.Agree.trans {A : Nat → Prop} {h h' h'' : PHeap F} (k : PHeap.Agree A h h')
    (k' : PHeap.Agree A h' h'') : PHeap.Agree A h h'' :=
  fun q hq => ⟨(k q hq).1.trans (k' q hq).1, (k q hq).2.trans (k' q hq).2⟩

end

namespace PoolProg
variable {F α β ι : Type}

/-- From the memory `h`, holding the buffers `held`, the program only touches what it may, whatever
buffers it gets and whatever they contain, and it ends with `Q`. -/
def Runs (own ro : Nat → Prop) (base : Nat) :
    PoolProg F α → List Nat → PHeap F → (α → List Nat → PHeap F → Prop) → Prop
  | ret a, held, h, Q => Q a held h
  | rd q i k, held, h, Q => (own q ∨ ro q ∨ q ∈ held) ∧ Runs own ro base (k (h.c q i)) held h Q
  | wr q i v k, held, h, Q =>
    (own q ∨ q ∈ held) ∧ Runs own ro base k held (h.setC q (Function.update (h.c q) i v)) Q
  | rdF q k, held, h, Q => (own q ∨ ro q ∨ q ∈ held) ∧ Runs own ro base (k (h.f q)) held h Q
  | wrF q b k, held, h, Q => (own q ∨ q ∈ held) ∧ Runs own ro base k held (h.setF q b) Q
  | take k, held, h, Q => ∀ b r fl, base ≤ b → b ∉ held →
    Runs own ro base (k b) (b :: held) ((h.setC b r).setF b fl) Q
  | give b k, held, h, Q => b ∈ held ∧ Runs own ro base k (held.erase b) h Q

variable {own ro : Nat → Prop} {base : Nat}

/-- The condition only looks at what the goroutine may see. -/
def Local (own ro : Nat → Prop) (Q : α → List Nat → PHeap F → Prop) : Prop :=
  ∀ a held h h', PHeap.Agree (fun q => own q ∨ ro q ∨ q ∈ held) h h' → Q a held h → Q a held h'

theorem Runs.congr {Q : α → List Nat → PHeap F → Prop} (hQ : Local own ro Q) (p : PoolProg F α) :
    ∀ (held : List Nat) (h h' : PHeap F), PHeap.Agree (fun q => own q ∨ ro q ∨ q ∈ held) h h' →
      Runs own ro base p held h Q → Runs own ro base p held h' Q := by
  induction p with
  | ret a => intro held h h' k hr; exact hQ a held h h' k hr
  | rd q i k ih =>
    intro held h h' e hr
    refine ⟨hr.1, ?_⟩
    rw [← (e q hr.1).1]
    exact ih _ held h h' e hr.2
  | wr q i v k ih =>
    intro held h h' e hr
    refine ⟨hr.1, ?_⟩
    have hq : own q ∨ ro q ∨ q ∈ held := hr.1.elim Or.inl fun x => Or.inr (Or.inr x)
    rw [← (e q hq).1]
    exact ih held _ _ (e.setC q _) hr.2
  | rdF q k ih =>
    intro held h h' e hr
    refine ⟨hr.1, ?_⟩
    rw [← (e q hr.1).2]
    exact ih _ held h h' e hr.2
  | wrF q b k ih =>
    intro held h h' e hr
    exact ⟨hr.1, ih held _ _ (e.setF q b) hr.2⟩
  | take k ih =>
    intro held h h' e hr b r fl hb hn
    refine ih b (b :: held) _ _ ((e.fill b r fl).mono ?_) (hr b r fl hb hn)
    rintro q (hq | hq | hq)
    · exact Or.inr (Or.inl hq)
    · exact Or.inr (Or.inr (Or.inl hq))
    · rcases List.mem_cons.1 hq with hq | hq
      · exact Or.inl hq
      · exact Or.inr (Or.inr (Or.inr hq))
  | give b k ih =>
    intro held h h' e hr
    refine ⟨hr.1, ih _ _ _ (e.mono ?_) hr.2⟩
    rintro q (hq | hq | hq)
    · exact Or.inl hq
    · exact Or.inr (Or.inl hq)
    · exact Or.inr (Or.inr (List.mem_of_mem_erase hq))

theorem Runs.mono {Q Q' : α → List Nat → PHeap F → Prop} (hQ : ∀ a held h, Q a held h → Q' a held h)
    (p : PoolProg F α) : ∀ (held : List Nat) (h : PHeap F),
      Runs own ro base p held h Q → Runs own ro base p held h Q' := by
  induction p with
  | ret a => intro held h hr; exact hQ a held h hr
  | rd q i k ih => intro held h hr; exact ⟨hr.1, ih _ _ _ hr.2⟩
  | wr q i v k ih => intro held h hr; exact ⟨hr.1, ih _ _ hr.2⟩
  | rdF q k ih => intro held h hr; exact ⟨hr.1, ih _ _ _ hr.2⟩
  | wrF q b k ih => intro held h hr; exact ⟨hr.1, ih _ _ hr.2⟩
  | take k ih => intro held h hr b r fl hb hn; exact ih _ _ _ (hr b r fl hb hn)
  | give b k ih => intro held h hr; exact ⟨hr.1, ih _ _ hr.2⟩

theorem runs_bind {Q : β → List Nat → PHeap F → Prop} (p : PoolProg F α) (g : α → PoolProg F β) :
    ∀ (held : List Nat) (h : PHeap F),
      Runs own ro base p held h (fun a held' h' => Runs own ro base (g a) held' h' Q) →
      Runs own ro base (p >>= g) held h Q := by
  change ∀ held h, _ → Runs own ro base (p.bind g) held h Q
  induction p with
  | ret a => intro held h hr; exact hr
  | rd q i k ih => intro held h hr; exact ⟨hr.1, ih _ _ _ hr.2⟩
  | wr q i v k ih => intro held h hr; exact ⟨hr.1, ih _ _ hr.2⟩
  | rdF q k ih => intro held h hr; exact ⟨hr.1, ih _ _ _ hr.2⟩
  | wrF q b k ih => intro held h hr; exact ⟨hr.1, ih _ _ hr.2⟩
  | take k ih => intro held h hr b r fl hb hn; exact ih _ _ _ (hr b r fl hb hn)
  | give b k ih => intro held h hr; exact ⟨hr.1, ih _ _ hr.2⟩

/-! ### All goroutines together -/

/-- What holds after every event: `held t` are the buffers of goroutine `t`, and the buffers `lost` have
been collected. -/
structure PoolInv (own : Nat → Nat → Prop) (ro : Nat → Prop) (base : Nat)
    (Q : Nat → α → List Nat → PHeap F → Prop) (ps : Nat → PoolProg F α) (m : PoolMem F)
    (held : Nat → List Nat) (lost : Nat → Prop) : Prop where
  runs : ∀ t, Runs (own t) ro base (ps t) (held t) m.heap (Q t)
  le : base ≤ m.next
  heldLt : ∀ t, ∀ b ∈ held t, base ≤ b ∧ b < m.next
  freeLt : ∀ b ∈ m.free, base ≤ b ∧ b < m.next
  heldNodup : ∀ t, (held t).Nodup
  freeNodup : m.free.Nodup
  disj : ∀ t t', t ≠ t' → ∀ b ∈ held t, b ∉ held t'
  disjFree : ∀ t, ∀ b ∈ held t, b ∉ m.free
  acc : ∀ b, base ≤ b → b < m.next → b ∈ m.free ∨ (∃ t, b ∈ held t) ∨ lost b

section
variable {own : Nat → Nat → Prop} {Q : Nat → α → List Nat → PHeap F → Prop}

/-- Writing what is one's own is not seen by others. -/
theorem PoolInv.keep {ps : Nat → PoolProg F α} {m : PoolMem F} {held : Nat → List Nat} {lost : Nat → Prop}
    (hown : ∀ t q, own t q → q < base) (hro : ∀ q, ro q → q < base)
    (hd : ∀ t t' q, t ≠ t' → own t q → ¬ own t' q) (hr : ∀ t q, own t q → ¬ ro q)
    (i : PoolInv own ro base Q ps m held lost) {t u q : Nat} (hq : own t q ∨ q ∈ held t) (hu : u ≠ t) :
    ¬ (own u q ∨ ro q ∨ q ∈ held u) := by
  rintro (h | h | h) <;> rcases hq with hq | hq
  · exact hd t u q (Ne.symm hu) hq h
  · have := hown _ _ h; have := (i.heldLt _ _ hq).1; omega
  · exact hr t q hq h
  · have := hro _ h; have := (i.heldLt _ _ hq).1; omega
  · have := hown _ _ hq; have := (i.heldLt _ _ h).1; omega
  · exact i.disj t u (Ne.symm hu) q hq h

theorem agree_setC {A : Nat → Prop} (h : PHeap F) {q : Nat} (r : Nat → F) (hq : ¬ A q) :
    PHeap.Agree A h (h.setC q r) := by
  intro q' hq'
  have e : q' ≠ q := fun e => hq (e ▸ hq')
  simp [PHeap.setC, Function.update_of_ne e]

theorem agree_setF {A : Nat → Prop} (h : PHeap F) {q : Nat} (b : Bool) (hq : ¬ A q) :
    PHeap.Agree A h (h.setF q b) := by
  intro q' hq'
  have e : q' ≠ q := fun e => hq (e ▸ hq')
  simp [PHeap.setF, Function.update_of_ne e]

variable [Zero F]

/-- A step keeps the invariant. -/
theorem PoolInv.step {ps : Nat → PoolProg F α} {m : PoolMem F} {held : Nat → List Nat} {lost : Nat → Prop}
    (hown : ∀ t q, own t q → q < base) (hro : ∀ q, ro q → q < base)
    (hd : ∀ t t' q, t ≠ t' → own t q → ¬ own t' q) (hr : ∀ t q, own t q → ¬ ro q)
    (hQ : ∀ t, Local (own t) ro (Q t)) (i : PoolInv own ro base Q ps m held lost) (t ch : Nat) :
    ∃ held', PoolInv own ro base Q (Function.update ps t ((ps t).step ch m).1) ((ps t).step ch m).2
      held' lost := by
  have it := i.runs t
  -- goroutine `t` goes on with `k`, the others do not notice
  have glue : ∀ (k : PoolProg F α) (hp : PHeap F),
      Runs (own t) ro base k (held t) hp (Q t) →
      (∀ u, u ≠ t → PHeap.Agree (fun q => own u q ∨ ro q ∨ q ∈ held u) m.heap hp) →
      ∀ u, Runs (own u) ro base (Function.update ps t k u) (held u) hp (Q u) := by
    intro k hp h1 h2 u
    by_cases e : u = t
    · subst e; simpa using h1
    · rw [Function.update_of_ne e]
      exact Runs.congr (hQ u) _ _ _ _ (h2 u e) (i.runs u)
  cases hp : ps t with
  | ret a =>
    refine ⟨held, { i with runs := ?_ }⟩
    have : Function.update ps t (ret a) = ps := by rw [← hp, Function.update_eq_self]
    intro u
    change Runs _ _ _ (Function.update ps t (ret a) u) _ _ _
    rw [this]; exact i.runs u
  | rd q j k =>
    rw [hp] at it
    exact ⟨held, { i with runs := glue _ _ it.2 fun u _ q' _ => ⟨rfl, rfl⟩ }⟩
  | rdF q k =>
    rw [hp] at it
    exact ⟨held, { i with runs := glue _ _ it.2 fun u _ q' _ => ⟨rfl, rfl⟩ }⟩
  | wr q j v k =>
    rw [hp] at it
    exact ⟨held, { i with
      runs := glue _ _ it.2 fun u hu => agree_setC _ _ (i.keep hown hro hd hr it.1 hu) }⟩
  | wrF q b k =>
    rw [hp] at it
    exact ⟨held, { i with
      runs := glue _ _ it.2 fun u hu => agree_setF _ _ (i.keep hown hro hd hr it.1 hu) }⟩
  | give b k =>
    rw [hp] at it
    refine ⟨Function.update held t ((held t).erase b), ?_⟩
    have hsub : ∀ u, ∀ x ∈ Function.update held t ((held t).erase b) u, x ∈ held u := by
      intro u x hx
      by_cases e : u = t
      · subst e; rw [Function.update_self] at hx; exact List.mem_of_mem_erase hx
      · rwa [Function.update_of_ne e] at hx
    refine ⟨?_, i.le, fun u x hx => i.heldLt u x (hsub u x hx), ?_, ?_, ?_, ?_, ?_, ?_⟩
    · intro u
      by_cases e : u = t
      · subst e; rw [Function.update_self, Function.update_self]; exact it.2
      · rw [Function.update_of_ne e, Function.update_of_ne e]; exact i.runs u
    · intro x hx
      rcases List.mem_cons.1 hx with rfl | hx
      · exact i.heldLt t x it.1
      · exact i.freeLt x hx
    · intro u
      by_cases e : u = t
      · subst e; rw [Function.update_self]; exact (i.heldNodup u).erase _
      · rw [Function.update_of_ne e]; exact i.heldNodup u
    · exact List.nodup_cons.2 ⟨i.disjFree t b it.1, i.freeNodup⟩
    · intro u u' hne x hx hx'
      exact i.disj u u' hne x (hsub u x hx) (hsub u' x hx')
    · intro u x hx hf
      rcases List.mem_cons.1 hf with rfl | hf
      · by_cases e : u = t
        · subst e
          rw [Function.update_self] at hx
          exact ((i.heldNodup u).mem_erase_iff.1 hx).1 rfl
        · rw [Function.update_of_ne e] at hx
          exact i.disj u t e x hx it.1
      · exact i.disjFree u x (hsub u x hx) hf
    · intro x h1 h2
      rcases i.acc x h1 h2 with h | ⟨u, h⟩ | h
      · exact Or.inl (List.mem_cons_of_mem _ h)
      · by_cases e : x = b
        · exact Or.inl (e ▸ List.mem_cons_self)
        · refine Or.inr (Or.inl ⟨u, ?_⟩)
          by_cases e' : u = t
          · subst e'; rw [Function.update_self]; exact (List.mem_erase_of_ne e).2 h
          · rwa [Function.update_of_ne e']
      · exact Or.inr (Or.inr h)
  | take k =>
    rw [hp] at it
    cases hf : m.free[ch]? with
    | some b =>
      have hbf : b ∈ m.free := List.mem_of_getElem? hf
      have hbl := i.freeLt b hbf
      have hstep : (take k : PoolProg F α).step ch m = (k b, { m with free := m.free.eraseIdx ch }) := by
        simp [PoolProg.step, hf]
      rw [hstep]
      refine ⟨Function.update held t (b :: held t), ?_⟩
      have hnh : ∀ u, b ∉ held u := fun u hu => i.disjFree u b hu hbf
      have hcase : ∀ u, ∀ x ∈ Function.update held t (b :: held t) u, x ∈ held u ∨ (u = t ∧ x = b) := by
        intro u x hx
        by_cases e : u = t
        · subst e; rw [Function.update_self] at hx
          rcases List.mem_cons.1 hx with h | h
          · exact Or.inr ⟨rfl, h⟩
          · exact Or.inl h
        · rw [Function.update_of_ne e] at hx; exact Or.inl hx
      have hbe : b ∉ m.free.eraseIdx ch := by
        obtain ⟨hlt, hge⟩ := List.getElem?_eq_some_iff.1 hf
        intro hm
        rw [List.mem_eraseIdx_iff_getElem] at hm
        obtain ⟨j, hj, hne, he⟩ := hm
        exact hne ((List.Nodup.getElem_inj_iff i.freeNodup).1 (he.trans hge.symm))
      refine ⟨?_, i.le, ?_, ?_, ?_, ?_, ?_, ?_, ?_⟩
      · intro u
        by_cases e : u = t
        · subst e
          rw [Function.update_self, Function.update_self]
          have := it b (m.heap.c b) (m.heap.f b) hbl.1 (hnh u)
          simpa [PHeap.setC, PHeap.setF] using this
        · rw [Function.update_of_ne e, Function.update_of_ne e]; exact i.runs u
      · intro u x hx
        rcases hcase u x hx with h | ⟨-, rfl⟩
        · exact i.heldLt u x h
        · exact hbl
      · intro x hx; exact i.freeLt x (List.mem_of_mem_eraseIdx hx)
      · intro u
        by_cases e : u = t
        · subst e; rw [Function.update_self]; exact List.nodup_cons.2 ⟨hnh u, i.heldNodup u⟩
        · rw [Function.update_of_ne e]; exact i.heldNodup u
      · exact i.freeNodup.eraseIdx ch
      · intro u u' hne x hx hx'
        rcases hcase u x hx with h | ⟨h1, h2⟩ <;> rcases hcase u' x hx' with h' | ⟨h1', h2'⟩
        · exact i.disj u u' hne x h h'
        · exact hnh u (h2' ▸ h)
        · exact hnh u' (h2 ▸ h')
        · exact hne (h1.trans h1'.symm)
      · intro u x hx hfx
        rcases hcase u x hx with h | ⟨-, rfl⟩
        · exact i.disjFree u x h (List.mem_of_mem_eraseIdx hfx)
        · exact hbe hfx
      · intro x h1 h2
        rcases i.acc x h1 h2 with h | ⟨u, h⟩ | h
        · by_cases e : x = b
          · exact Or.inr (Or.inl ⟨t, by rw [Function.update_self, e]; exact List.mem_cons_self⟩)
          · refine Or.inl ?_
            obtain ⟨j, hj, rfl⟩ := List.getElem_of_mem h
            refine List.mem_eraseIdx_iff_getElem.2 ⟨j, hj, fun ej => e ?_, rfl⟩
            subst ej
            exact (List.getElem?_eq_some_iff.1 hf).2
        · refine Or.inr (Or.inl ⟨u, ?_⟩)
          by_cases e' : u = t
          · subst e'; rw [Function.update_self]; exact List.mem_cons_of_mem _ h
          · rwa [Function.update_of_ne e']
        · exact Or.inr (Or.inr h)
    | none =>
      have hstep : (take k : PoolProg F α).step ch m = (k m.next,
          { heap := (m.heap.setC m.next (fun _ => 0)).setF m.next true
            free := m.free
            next := m.next + 1 }) := by
        simp [PoolProg.step, hf, PHeap.setC, PHeap.setF]
      rw [hstep]
      refine ⟨Function.update held t (m.next :: held t), ?_⟩
      have hnh : ∀ u, m.next ∉ held u := fun u hu => by have := (i.heldLt u _ hu).2; omega
      have hcase : ∀ u, ∀ x ∈ Function.update held t (m.next :: held t) u,
          x ∈ held u ∨ (u = t ∧ x = m.next) := by
        intro u x hx
        by_cases e : u = t
        · subst e; rw [Function.update_self] at hx
          rcases List.mem_cons.1 hx with h | h
          · exact Or.inr ⟨rfl, h⟩
          · exact Or.inl h
        · rw [Function.update_of_ne e] at hx; exact Or.inl hx
      refine ⟨?_, by have := i.le; change base ≤ m.next + 1; omega, ?_, ?_, ?_, i.freeNodup, ?_, ?_, ?_⟩
      · intro u
        by_cases e : u = t
        · subst e
          rw [Function.update_self, Function.update_self]
          exact it m.next _ _ i.le (hnh u)
        · rw [Function.update_of_ne e, Function.update_of_ne e]
          have hns : ¬ (own u m.next ∨ ro m.next ∨ m.next ∈ held u) := by
            have := i.le
            rintro (h | h | h)
            · have := hown _ _ h; omega
            · have := hro _ h; omega
            · exact hnh u h
          exact Runs.congr (hQ u) _ _ _ _
            ((agree_setC _ _ hns).trans (agree_setF _ _ hns)) (i.runs u)
      · intro u x hx
        rcases hcase u x hx with h | ⟨-, rfl⟩
        · have := i.heldLt u x h
          exact ⟨this.1, Nat.lt_succ_of_lt this.2⟩
        · exact ⟨i.le, Nat.lt_succ_self _⟩
      · intro x hx
        have := i.freeLt x hx
        exact ⟨this.1, Nat.lt_succ_of_lt this.2⟩
      · intro u
        by_cases e : u = t
        · subst e; rw [Function.update_self]; exact List.nodup_cons.2 ⟨hnh u, i.heldNodup u⟩
        · rw [Function.update_of_ne e]; exact i.heldNodup u
      · intro u u' hne x hx hx'
        rcases hcase u x hx with h | ⟨h1, h2⟩ <;> rcases hcase u' x hx' with h' | ⟨h1', h2'⟩
        · exact i.disj u u' hne x h h'
        · exact hnh u (h2' ▸ h)
        · exact hnh u' (h2 ▸ h')
        · exact hne (h1.trans h1'.symm)
      · intro u x hx hfx
        rcases hcase u x hx with h | ⟨-, rfl⟩
        · exact i.disjFree u x h hfx
        · have := (i.freeLt _ hfx).2; omega
      · intro x h1 h2
        have h2 : x < m.next + 1 := h2
        by_cases e : x = m.next
        · exact Or.inr (Or.inl ⟨t, by rw [Function.update_self, e]; exact List.mem_cons_self⟩)
        rcases i.acc x h1 (by omega) with h | ⟨u, h⟩ | h
        · exact Or.inl h
        · refine Or.inr (Or.inl ⟨u, ?_⟩)
          by_cases e' : u = t
          · subst e'; rw [Function.update_self]; exact List.mem_cons_of_mem _ h
          · rwa [Function.update_of_ne e']
        · exact Or.inr (Or.inr h)

omit [Zero F] in
theorem PoolInv.gc {ps : Nat → PoolProg F α} {m : PoolMem F} {held : Nat → List Nat} {lost : Nat → Prop}
    (i : PoolInv own ro base Q ps m held lost) (j : Nat) :
    PoolInv own ro base Q ps { m with free := m.free.eraseIdx j } held
      (fun b => lost b ∨ m.free[j]? = some b) :=
  { i with
    acc := fun x h1 h2 => by
      rcases i.acc x h1 h2 with h | ⟨u, h⟩ | h
      · by_cases e : m.free[j]? = some x
        · exact Or.inr (Or.inr (Or.inr e))
        · refine Or.inl ?_
          obtain ⟨l, hl, rfl⟩ := List.getElem_of_mem h
          refine List.mem_eraseIdx_iff_getElem.2 ⟨l, hl, fun ej => e ?_, rfl⟩
          subst ej
          exact List.getElem?_eq_getElem hl
      · exact Or.inr (Or.inl ⟨u, h⟩)
      · exact Or.inr (Or.inr (Or.inl h))
    freeLt := fun x hx => i.freeLt x (List.mem_of_mem_eraseIdx hx)
    freeNodup := i.freeNodup.eraseIdx j
    disjFree := fun u x hx hf => i.disjFree u x hx (List.mem_of_mem_eraseIdx hf) }

/-- The invariant after any events. -/
theorem PoolInv.all (hown : ∀ t q, own t q → q < base) (hro : ∀ q, ro q → q < base)
    (hd : ∀ t t' q, t ≠ t' → own t q → ¬ own t' q) (hr : ∀ t q, own t q → ¬ ro q)
    (hQ : ∀ t, Local (own t) ro (Q t)) (s : List PoolEvent) :
    ∀ {ps : Nat → PoolProg F α} {m : PoolMem F} {held : Nat → List Nat} {lost : Nat → Prop},
      PoolInv own ro base Q ps m held lost →
      ∃ held' lost', PoolInv own ro base Q (poolRun ps m s).1 (poolRun ps m s).2 held' lost' ∧
        ((∀ j, PoolEvent.gc j ∉ s) → lost' = lost) := by
  induction s with
  | nil => intro ps m held lost i; exact ⟨held, lost, i, fun _ => rfl⟩
  | cons e s ih =>
    intro ps m held lost i
    cases e with
    | run t ch =>
      obtain ⟨held', i'⟩ := i.step hown hro hd hr hQ t ch
      obtain ⟨h2, l2, i2, e2⟩ := ih i'
      exact ⟨h2, l2, i2, fun hg => e2 fun j hj => hg j (List.mem_cons_of_mem _ hj)⟩
    | gc j =>
      obtain ⟨h2, l2, i2, -⟩ := ih (i.gc j)
      exact ⟨h2, l2, i2, fun hg => (hg j List.mem_cons_self).elim⟩

end

end PoolProg
end Ringo
