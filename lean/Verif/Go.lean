import Mathlib.Data.List.Basic
import Mathlib.Tactic.Ring
import Mathlib.Tactic.Linarith

/-!
# Go semantics used by the model

A Go call either returns a value, panics, or (through `unsafe.Pointer`) touches
memory outside the slice it was given, which is undefined behaviour.  Slices are
lists; a function that mutates a slice returns the new contents.
-/

namespace Ringo

/-- The ways a run can go wrong: a Go panic, an unsafe access outside a slice, or an endless
loop. -/
inductive Fault
  | panic
  | ub
  | hang
  deriving DecidableEq, Repr

/-- A Go computation. -/
abbrev Go (α : Type _) := Except Fault α

/-- Panic. -/
def goPanic {α : Type _} : Go α := Except.error Fault.panic

/-- `l[i]`: bounds-checked read. -/
def idx {α : Type _} (l : List α) (i : Nat) : Go α :=
  match l[i]? with
  | some x => Except.ok x
  | none => Except.error Fault.panic

/-- `l[i] = x`: bounds-checked write. -/
def setIdx {α : Type _} (l : List α) (i : Nat) (x : α) : Go (List α) :=
  if i < l.length then Except.ok (l.set i x) else Except.error Fault.panic

/-- Unchecked read through an `unsafe` window. -/
def uidx {α : Type _} (l : List α) (i : Nat) : Go α :=
  match l[i]? with
  | some x => Except.ok x
  | none => Except.error Fault.ub

/-- Unchecked write through an `unsafe` window. -/
def usetIdx {α : Type _} (l : List α) (i : Nat) (x : α) : Go (List α) :=
  if i < l.length then Except.ok (l.set i x) else Except.error Fault.ub

/-- Taking the address `&l[i]` is bounds checked. -/
def addr {α : Type _} (l : List α) (i : Nat) : Go Unit :=
  if i < l.length then Except.ok () else Except.error Fault.panic

/-- `for i := lo; i < hi; i += step { s = f s i }`. -/
def forRange {σ : Type _} (lo hi step : Nat) (s : σ) (f : σ → Nat → Go σ) : Go σ :=
  (List.range' lo ((hi - lo + (step - 1)) / step) step).foldlM f s

/-- `for i := hi-1; i >= lo; i-- { s = f s i }`. -/
def forDown {σ : Type _} (hi lo : Nat) (s : σ) (f : σ → Nat → Go σ) : Go σ :=
  (List.range' lo (hi - lo)).reverse.foldlM f s

/-- The values taken by `m` in `for m := lo; m <= hi; m <<= 1` (for `lo ≥ 1`, as in all
uses; the guard makes the definition total). -/
def doublings (lo hi : Nat) : List Nat :=
  if 1 ≤ lo ∧ lo ≤ hi then lo :: doublings (2 * lo) hi else []
  termination_by hi + 1 - lo
  decreasing_by omega

/-- The values taken by `m` in `for m := hi; m >= lo; m >>= 1` (for `lo ≥ 1`). -/
def halvings (hi lo : Nat) : List Nat :=
  if 1 ≤ lo ∧ lo ≤ hi then hi :: halvings (hi / 2) lo else []
  termination_by hi
  decreasing_by omega

section lemmas
variable {α β σ : Type _}

@[simp] theorem idx_ok {l : List α} {i : Nat} (h : i < l.length) : idx l i = .ok l[i] := by
  simp [idx, h]

theorem idx_ok_iff {l : List α} {i : Nat} {x : α} : idx l i = .ok x ↔ l[i]? = some x := by
  unfold idx; cases h : l[i]? <;> simp

theorem idx_panic {l : List α} {i : Nat} (h : l.length ≤ i) : idx l i = .error .panic := by
  simp [idx, h]

@[simp] theorem uidx_ok {l : List α} {i : Nat} (h : i < l.length) : uidx l i = .ok l[i] := by
  simp [uidx, h]

@[simp] theorem setIdx_ok {l : List α} {i : Nat} {x : α} (h : i < l.length) :
    setIdx l i x = .ok (l.set i x) := by
  simp [setIdx, h]

@[simp] theorem usetIdx_ok {l : List α} {i : Nat} {x : α} (h : i < l.length) :
    usetIdx l i x = .ok (l.set i x) := by
  simp [usetIdx, h]

@[simp] theorem addr_ok {l : List α} {i : Nat} (h : i < l.length) : addr l i = .ok () := by
  simp [addr, h]

@[simp] theorem go_bind_ok {x : α} {f : α → Go β} :
    ((Except.ok x : Go α) >>= f) = f x := rfl

@[simp] theorem go_bind_error {e : Fault} {f : α → Go β} :
    ((Except.error e : Go α) >>= f) = Except.error e := rfl

@[simp] theorem go_pure {x : α} : (pure x : Go α) = Except.ok x := rfl

@[simp] theorem go_bind_ok_right {x : Go α} : (x >>= fun a => Except.ok a) = x := by
  cases x <;> rfl

theorem foldlM_flatMap (f : σ → β → Go σ) (g : α → List β) (L : List α) (s : σ) :
    (L.flatMap g).foldlM f s = L.foldlM (fun s a => (g a).foldlM f s) s := by
  induction L generalizing s with
  | nil => rfl
  | cons a L ih =>
    simp only [List.flatMap_cons, List.foldlM_append, List.foldlM_cons]
    congr 1; funext s'; exact ih s'

/-- Two loop bodies that agree on all states satisfying an invariant kept by the second one
give the same run. -/
theorem foldlM_congr_inv {f g : σ → α → Go σ} (P : σ → Prop) (L : List α) (s : σ)
    (hP : P s) (hfg : ∀ s a, a ∈ L → P s → f s a = g s a)
    (hg : ∀ s a s', a ∈ L → P s → g s a = .ok s' → P s') :
    L.foldlM f s = L.foldlM g s := by
  induction L generalizing s with
  | nil => rfl
  | cons a L ih =>
    simp only [List.foldlM_cons]
    rw [hfg s a (by simp) hP]
    cases h : g s a with
    | error e => rfl
    | ok s' =>
      exact ih s' (hg s a s' (by simp) hP h) (fun s a ha => hfg s a (by simp [ha]))
        (fun s a s' ha => hg s a s' (by simp [ha]))

/-- A loop whose body never faults under an invariant is a pure fold. -/
theorem foldlM_pure {f : σ → α → Go σ} {g : σ → α → σ} (P : σ → Prop) (L : List α) (s : σ)
    (hP : P s) (hfg : ∀ s a, a ∈ L → P s → f s a = .ok (g s a) ∧ P (g s a)) :
    L.foldlM f s = .ok (L.foldl g s) ∧ P (L.foldl g s) := by
  induction L generalizing s with
  | nil => exact ⟨rfl, hP⟩
  | cons a L ih =>
    obtain ⟨h1, h2⟩ := hfg s a (by simp) hP
    simp only [List.foldlM_cons, h1, go_bind_ok, List.foldl_cons]
    exact ih _ h2 (fun s a ha => hfg s a (by simp [ha]))

/-- Invariant rule for an ascending unit-step loop. -/
theorem forRange_spec {f : σ → Nat → Go σ} (lo hi : Nat) (hlh : lo ≤ hi) (I : Nat → σ → Prop)
    (s : σ) (h0 : I lo s)
    (hstep : ∀ i s, lo ≤ i → i < hi → I i s → ∃ s', f s i = .ok s' ∧ I (i + 1) s') :
    ∃ s', forRange lo hi 1 s f = .ok s' ∧ I hi s' := by
  obtain ⟨n, rfl⟩ := Nat.exists_eq_add_of_le hlh
  have key : ∀ n lo s, I lo s →
      (∀ i s, lo ≤ i → i < lo + n → I i s → ∃ s', f s i = .ok s' ∧ I (i + 1) s') →
      ∃ s', (List.range' lo n 1).foldlM f s = .ok s' ∧ I (lo + n) s' := by
    intro n
    induction n with
    | zero => intro lo s h _; exact ⟨s, rfl, h⟩
    | succ n ih =>
      intro lo s h hs
      obtain ⟨s', h1, h2⟩ := hs lo s le_rfl (by omega) h
      obtain ⟨s'', h3, h4⟩ := ih (lo + 1) s' h2 (fun i s hi hi2 => hs i s (by omega) (by omega))
      refine ⟨s'', ?_, by rwa [show lo + (n + 1) = lo + 1 + n by omega]⟩
      rw [List.range'_succ, List.foldlM_cons, h1]; exact h3
  have := key n lo s h0 hstep
  simpa [forRange] using this

/-- Invariant rule for a descending unit-step loop. -/
theorem forDown_spec {f : σ → Nat → Go σ} (hi lo : Nat) (hlh : lo ≤ hi) (I : Nat → σ → Prop)
    (s : σ) (h0 : I hi s)
    (hstep : ∀ i s, lo ≤ i → i < hi → I (i + 1) s → ∃ s', f s i = .ok s' ∧ I i s') :
    ∃ s', forDown hi lo s f = .ok s' ∧ I lo s' := by
  obtain ⟨n, rfl⟩ := Nat.exists_eq_add_of_le hlh
  have key : ∀ n s, I (lo + n) s →
      (∀ i s, lo ≤ i → i < lo + n → I (i + 1) s → ∃ s', f s i = .ok s' ∧ I i s') →
      ∃ s', (List.range' lo n 1).reverse.foldlM f s = .ok s' ∧ I lo s' := by
    intro n
    induction n with
    | zero => intro s h _; exact ⟨s, rfl, h⟩
    | succ n ih =>
      intro s h hs
      obtain ⟨s', h1, h2⟩ := hs (lo + n) s (by omega) (by omega) h
      obtain ⟨s'', h3, h4⟩ := ih s' h2 (fun i s hi hi2 => hs i s (by omega) (by omega))
      refine ⟨s'', ?_, h4⟩
      rw [List.range'_concat, List.reverse_append, List.reverse_singleton, List.singleton_append,
        List.foldlM_cons]
      simp only [one_mul]
      rw [h1]; exact h3
  have := key n s h0 hstep
  simpa [forDown] using this

theorem doublings_pow (a k hi : Nat) (h1 : hi < 2 ^ (a + k)) (h2 : ∀ j < k, 2 ^ (a + j) ≤ hi) :
    doublings (2 ^ a) hi = (List.range' a k).map (2 ^ ·) := by
  induction k generalizing a with
  | zero =>
    rw [doublings, if_neg]
    · rfl
    · simp only [Nat.add_zero] at h1; omega
  | succ k ih =>
    have h3 := h2 0 (by omega)
    rw [doublings, if_pos ⟨Nat.two_pow_pos a, h3⟩, List.range'_succ, List.map_cons, ← Nat.pow_succ',
      ih (a + 1) (by rwa [show a + 1 + k = a + (k + 1) by omega])
        (fun j hj => by
          have := h2 (j + 1) (by omega)
          rwa [show a + (j + 1) = a + 1 + j by omega] at this)]

theorem doublings_half (K : Nat) :
    doublings 1 (2 ^ K / 2) = (List.range K).map (2 ^ ·) := by
  rw [List.range_eq_range']
  refine doublings_pow 0 K _ ?_ ?_
  · have := Nat.two_pow_pos K; simp only [Nat.zero_add]; omega
  · intro j hj
    have : 2 ^ (j + 1) ≤ 2 ^ K := Nat.pow_le_pow_right (by decide) hj
    rw [Nat.pow_succ] at this
    simp only [Nat.zero_add]; omega

theorem halvings_pow (a k : Nat) :
    halvings (2 ^ (a + k) / 2) (2 ^ a) = (List.range' a k).reverse.map (2 ^ ·) := by
  induction k with
  | zero =>
    have := Nat.two_pow_pos a
    rw [halvings, if_neg (by simp only [Nat.add_zero]; omega)]; rfl
  | succ k ih =>
    have h1 : (2:Nat) ^ (a + (k + 1)) / 2 = 2 ^ (a + k) := by
      rw [← Nat.add_assoc, Nat.pow_succ]; omega
    have h2 : (2:Nat) ^ a ≤ 2 ^ (a + k) := Nat.pow_le_pow_right (by decide) (by omega)
    rw [h1, halvings, if_pos ⟨Nat.two_pow_pos a, h2⟩, ih, List.range'_concat, List.reverse_append]
    simp

theorem halvings_half (K : Nat) :
    halvings (2 ^ K / 2) 1 = (List.range K).reverse.map (2 ^ ·) := by
  have := halvings_pow 0 K
  rw [List.range_eq_range']
  simpa using this

end lemmas

end Ringo
