import Verif.Proof.PoolClient
import Verif.Props.Poly

/-!
# C120: goroutines with one evaluator

The evaluators of bigpoly have no `SafeCopy`: their only mutable state is a `sync.Pool` of scratch
polynomials (base_op.go:12-35).  Let any number of goroutines use one evaluator at the same time, each
writing polynomials of its own, and reading these and polynomials nobody writes.  A step is one read or
write of one coefficient or flag, or one `Get` or `Put` of the pool.  `Get` returns any polynomial that
is in the pool, with whatever is in it, or a new one, and the garbage collector may take polynomials from
the pool.
-/

namespace Ringo
open PoolProg Polynomial

section
variable {p : Nat} [Fact p.Prime] {R : Type}

/-- The evaluator is made by `NewCyclotomicEvaluator` or `NewCyclicEvaluator` (`AutTo` is a method of the
former). -/
def SharedEv (p : Nat) [Fact p.Prime] (K : Nat) (cyc : Prop) (ev : Evaluator (ZMod p)) : Prop :=
  3 ≤ K ∧ (newCyclotomicEvaluator p (2 ^ K) = .ok ev ∨ (newCyclicEvaluator p (2 ^ K) = .ok ev ∧ ¬ cyc))

/-- Polynomials below `base` are the callers': `own t` those goroutine `t` writes, and `ro` those all may
read.  The pool has other polynomials. -/
structure PoolSetup {F : Type} (own : Nat → Nat → Prop) (ro : Nat → Prop) (base : Nat) (m : PoolMem F) :
    Prop where
  ownLt : ∀ t q, own t q → q < base
  roLt : ∀ q, ro q → q < base
  apart : ∀ t t' q, t ≠ t' → own t q → ¬ own t' q
  notRo : ∀ t q, own t q → ¬ ro q
  nextLe : base ≤ m.next
  free : ∀ b ∈ m.free, base ≤ b ∧ b < m.next
  once : m.free.Nodup

variable {K : Nat} {cyc : Prop} {ev : Evaluator (ZMod p)} {own : Nat → Nat → Prop} {ro : Nat → Prop}
  {base : Nat} {m : PoolMem (ZMod p)} {len : Nat → Nat} {c : Nat → PoolClient (ZMod p) R}

/-- What holds when goroutine `t` ends. -/
def poolDone (own : Nat → Nat → Prop) (ro : Nat → Prop) (len : Nat → Nat) (ev : Evaluator (ZMod p))
    (c : Nat → PoolClient (ZMod p) R) (h₀ : PHeap (ZMod p)) (t : Nat) (r : R) (held : List Nat)
    (h : PHeap (ZMod p)) : Prop :=
  held = [] ∧ r = ((c t).alone ev (polyAt len h₀)).1 ∧
    PoolRel (own t) ro len h ((c t).alone ev (polyAt len h₀)).2

theorem pool_inv (hev : SharedEv p K cyc ev) (hs : PoolSetup own ro base m)
    (hc : ∀ t, (c t).Keeps (own t) ro len cyc) (s : List PoolEvent) :
    ∃ held lost, PoolInv own ro base (poolDone own ro len ev c m.heap)
      (poolRun (fun t => (c t).prog ev len) m s).1 (poolRun (fun t => (c t).prog ev len) m s).2 held lost ∧
      ((∀ j, PoolEvent.gc j ∉ s) → lost = fun b => b < m.next ∧ b ∉ m.free) := by
  have hev' : ∃ M pt, PoolEv K M pt cyc ev := by
    obtain ⟨hK, h | ⟨h, hn⟩⟩ := hev
    · obtain ⟨M, pt, h⟩ := cyclotomic_poolEv hK h
      exact ⟨M, pt, h.1, fun _ => h.2 trivial⟩
    · obtain ⟨M, pt, h⟩ := cyclic_poolEv hK h
      exact ⟨M, pt, h.1, fun x => (hn x).elim⟩
  obtain ⟨M, pt, hev'⟩ := hev'
  refine PoolInv.all hs.ownLt hs.roLt hs.apart hs.notRo (fun t => ?_) s (held := fun _ => []) ⟨fun t => ?_,
    hs.nextLe, by simp, hs.free, by simp, hs.once, by simp, by simp, fun b _ h2 => ?_⟩
  · rintro r held h h' ha ⟨h1, h2, h3⟩
    refine ⟨h1, h2, fun q hq => ?_⟩
    rw [← h3 q hq]
    obtain ⟨e1, e2⟩ := ha q (rd_of hq)
    unfold polyAt
    rw [e1, e2]
  · exact runs_client hev' (fun q hq => hq.elim (hs.ownLt t q) (hs.roLt q)) (c t) (hc t) [] m.heap _
      fun q _ => rfl
  · by_cases h : b ∈ m.free
    · exact Or.inl h
    · exact Or.inr (Or.inr ⟨h2, h⟩)

/-- **C120**: whatever the order of the steps, a goroutine that ends returns what it returns alone, and
leaves its polynomials as it leaves them alone. -/
theorem C120_results (hev : SharedEv p K cyc ev) (hs : PoolSetup own ro base m)
    (hc : ∀ t, (c t).Keeps (own t) ro len cyc) (s : List PoolEvent) (t : Nat) (r : R) :
    let e := poolRun (fun t => (c t).prog ev len) m s
    e.1 t = .ret r →
      r = ((c t).alone ev (polyAt len m.heap)).1 ∧
      ∀ q, own t q → polyAt len e.2.heap q = ((c t).alone ev (polyAt len m.heap)).2 q := by
  intro e he
  obtain ⟨held, lost, i, -⟩ := pool_inv hev hs hc s
  have := i.runs t
  rw [show (poolRun (fun t => (c t).prog ev len) m s).1 t = .ret r from he] at this
  exact ⟨this.2.1, fun q hq => this.2.2 q (Or.inl hq)⟩

/-- **C120**: there is no data race: when two goroutines are about to access the same coefficient or flag,
both are about to read it. -/
theorem C120_noRace (hev : SharedEv p K cyc ev) (hs : PoolSetup own ro base m)
    (hc : ∀ t, (c t).Keeps (own t) ro len cyc) (s : List PoolEvent) (t t' : Nat) (hne : t ≠ t')
    (q : Nat) (i : Option Nat) (w w' : Bool) :
    let e := poolRun (fun t => (c t).prog ev len) m s
    (e.1 t).access = some (q, i, w) → (e.1 t').access = some (q, i, w') → w = false ∧ w' = false := by
  intro e h1 h2
  obtain ⟨held, lost, inv, -⟩ := pool_inv hev hs hc s
  have key : ∀ u w, (e.1 u).access = some (q, i, w) →
      (own u q ∨ ro q ∨ q ∈ held u) ∧ (w = true → own u q ∨ q ∈ held u) := by
    intro u w hu
    have hr := inv.runs u
    change Runs _ _ _ (e.1 u) _ _ _ at hr
    cases hp : e.1 u with
    | ret a => rw [hp] at hu; cases hu
    | rd q' j k => rw [hp] at hu hr; cases hu; exact ⟨hr.1, by simp⟩
    | rdF q' k => rw [hp] at hu hr; cases hu; exact ⟨hr.1, by simp⟩
    | wr q' j v k =>
      rw [hp] at hu hr; cases hu
      exact ⟨hr.1.elim Or.inl fun h => Or.inr (Or.inr h), fun _ => hr.1⟩
    | wrF q' b k =>
      rw [hp] at hu hr; cases hu
      exact ⟨hr.1.elim Or.inl fun h => Or.inr (Or.inr h), fun _ => hr.1⟩
    | take k => rw [hp] at hu; cases hu
    | give b k => rw [hp] at hu; cases hu
  have a1 := key t w h1
  have a2 := key t' w' h2
  constructor
  · cases w with
    | false => rfl
    | true => exact (inv.keep hs.ownLt hs.roLt hs.apart hs.notRo (a1.2 rfl) (Ne.symm hne) a2.1).elim
  · cases w' with
    | false => rfl
    | true => exact (inv.keep hs.ownLt hs.roLt hs.apart hs.notRo (a2.2 rfl) hne a1.1).elim

theorem poolRun_append {F : Type} [Zero F] (s s' : List PoolEvent) : ∀ (ps : Nat → PoolProg F R) (m : PoolMem F),
    poolRun ps m (s ++ s') = poolRun (poolRun ps m s).1 (poolRun ps m s).2 s' := by
  induction s with
  | nil => intro ps m; rfl
  | cons e s ih =>
    intro ps m
    cases e with
    | run t ch => exact ih _ _
    | gc j => exact ih _ _

theorem step_take_some {F : Type} [Zero F] {k : Nat → PoolProg F R} {m : PoolMem F} {ch b : Nat}
    (h : m.free[ch]? = some b) :
    (take k).step ch m = (k b, { m with free := m.free.eraseIdx ch }) := by
  simp [PoolProg.step, h]

theorem step_take_none {F : Type} [Zero F] {k : Nat → PoolProg F R} {m : PoolMem F} {ch : Nat}
    (h : m.free[ch]? = none) :
    (take k).step ch m = (k m.next,
      { heap := ⟨Function.update m.heap.c m.next (fun _ => 0), Function.update m.heap.f m.next true⟩
        free := m.free
        next := m.next + 1 }) := by
  simp [PoolProg.step, h]

/-- **C120**: a polynomial of the callers that no goroutine writes stays as it is. -/
theorem C120_args (hev : SharedEv p K cyc ev) (hs : PoolSetup own ro base m)
    (hc : ∀ t, (c t).Keeps (own t) ro len cyc) (q : Nat) (hq : q < base) (hn : ∀ t, ¬ own t q)
    (s : List PoolEvent) :
    let e := poolRun (fun t => (c t).prog ev len) m s
    polyAt len e.2.heap q = polyAt len m.heap q := by
  intro e
  suffices h : e.2.heap.c q = m.heap.c q ∧ e.2.heap.f q = m.heap.f q by
    unfold polyAt; rw [h.1, h.2]
  induction s using List.reverseRecOn with
  | nil => exact ⟨rfl, rfl⟩
  | append_singleton s x ih =>
    obtain ⟨held, lost, inv, -⟩ := pool_inv hev hs hc s
    obtain ⟨i1, i2⟩ := ih
    suffices h : e.2.heap.c q = (poolRun (fun t => (c t).prog ev len) m s).2.heap.c q ∧
        e.2.heap.f q = (poolRun (fun t => (c t).prog ev len) m s).2.heap.f q from
      ⟨h.1.trans i1, h.2.trans i2⟩
    have he : e = poolRun (poolRun (fun t => (c t).prog ev len) m s).1
        (poolRun (fun t => (c t).prog ev len) m s).2 [x] := poolRun_append s [x] _ _
    rw [he]
    generalize poolRun (fun t => (c t).prog ev len) m s = st at *
    cases x with
    | gc j => exact ⟨rfl, rfl⟩
    | run t ch =>
      have hr := inv.runs t
      have hno : ∀ b, own t b ∨ b ∈ held t → q ≠ b := by
        rintro b (h | h) rfl
        · exact hn t h
        · have := (inv.heldLt t q h).1
          omega
      change ((st.1 t).step ch st.2).2.heap.c q = _ ∧ ((st.1 t).step ch st.2).2.heap.f q = _
      cases hp : st.1 t with
      | ret a => exact ⟨rfl, rfl⟩
      | rd q' j k => exact ⟨rfl, rfl⟩
      | rdF q' k => exact ⟨rfl, rfl⟩
      | give b k => exact ⟨rfl, rfl⟩
      | wr q' j v k =>
        rw [hp] at hr
        exact ⟨Function.update_of_ne (hno q' hr.1) _ _, rfl⟩
      | wrF q' b k =>
        rw [hp] at hr
        exact ⟨rfl, Function.update_of_ne (hno q' hr.1) _ _⟩
      | take k =>
        cases hf : st.2.free[ch]? with
        | some b => rw [step_take_some hf]; exact ⟨rfl, rfl⟩
        | none =>
          rw [step_take_none hf]
          have : q ≠ st.2.next := by have := inv.le; omega
          exact ⟨Function.update_of_ne this _ _, Function.update_of_ne this _ _⟩

/-- **C120**: no scratch polynomial is kept: when all goroutines have ended and the garbage collector has
taken nothing, every polynomial that was in the pool or has been made since is in the pool, once. -/
theorem C120_pool (hev : SharedEv p K cyc ev) (hs : PoolSetup own ro base m)
    (hc : ∀ t, (c t).Keeps (own t) ro len cyc) (s : List PoolEvent) (hg : ∀ j, PoolEvent.gc j ∉ s) :
    let e := poolRun (fun t => (c t).prog ev len) m s
    (∀ t, ∃ r, e.1 t = .ret r) →
      (∀ b, b ∈ m.free ∨ (m.next ≤ b ∧ b < e.2.next) → b ∈ e.2.free) ∧ e.2.free.Nodup := by
  intro e hd
  obtain ⟨held, lost, inv, hl⟩ := pool_inv hev hs hc s
  refine ⟨fun b hb => ?_, inv.freeNodup⟩
  have hmono : m.next ≤ e.2.next := by
    have key : ∀ (s : List PoolEvent) (ps : Nat → PoolProg (ZMod p) R) (m : PoolMem (ZMod p)),
        m.next ≤ (poolRun ps m s).2.next := by
      intro s
      induction s with
      | nil => intro ps m; exact Nat.le_refl _
      | cons x s ih =>
        intro ps m
        cases x with
        | gc j => exact ih ps { m with free := m.free.eraseIdx j }
        | run t ch =>
          refine Nat.le_trans ?_ (ih (Function.update ps t ((ps t).step ch m).1) ((ps t).step ch m).2)
          cases ps t with
          | take k =>
            cases hf : m.free[ch]? with
            | some b => rw [step_take_some hf]
            | none => rw [step_take_none hf]; exact Nat.le_succ _
          | _ => exact Nat.le_refl _
    exact key _ _ _
  have hlt : base ≤ b ∧ b < e.2.next := by
    rcases hb with h | h
    · have := hs.free b h; omega
    · have := hs.nextLe; omega
  rcases inv.acc b hlt.1 hlt.2 with h | ⟨t, h⟩ | h
  · exact h
  · obtain ⟨r, hr⟩ := hd t
    have := inv.runs t
    rw [show (poolRun (fun t => (c t).prog ev len) m s).1 t = .ret r from hr] at this
    rw [this.1] at h
    cases h
  · rw [hl hg] at h
    rcases hb with h' | h'
    · exact (h.2 h').elim
    · have := h.1; omega

/-- **C120**: nothing waits: in a fair schedule every goroutine ends. -/
theorem C120_ends {F : Type} [Zero F] (ps : Nat → PoolProg F R) (m : PoolMem F) (x : Nat → PoolEvent) (t : Nat)
    (fair : ∀ n, ∃ n' ≥ n, ∃ ch, x n' = .run t ch) :
    ∃ n r, ∀ n' ≥ n, (poolRun ps m ((List.range n').map x)).1 t = .ret r := by
  have hsucc : ∀ n, poolRun ps m ((List.range (n + 1)).map x) =
      poolRun (poolRun ps m ((List.range n).map x)).1 (poolRun ps m ((List.range n).map x)).2 [x n] := by
    intro n
    rw [List.range_succ, List.map_append, poolRun_append]; rfl
  have hstay : ∀ n, (∀ ch, x n ≠ .run t ch) → (poolRun ps m ((List.range (n + 1)).map x)).1 t =
      (poolRun ps m ((List.range n).map x)).1 t := by
    intro n hn
    rw [hsucc]
    cases hx : x n with
    | gc j => rfl
    | run t' ch =>
      have : t ≠ t' := fun e => hn ch (by rw [hx, e])
      exact Function.update_of_ne this _ _
  have hgo : ∀ n ch, x n = .run t ch → (poolRun ps m ((List.range (n + 1)).map x)).1 t =
      (((poolRun ps m ((List.range n).map x)).1 t).step ch (poolRun ps m ((List.range n).map x)).2).1 := by
    intro n ch hn
    rw [hsucc, hn]
    exact Function.update_self _ _ _
  have hret : ∀ n r, (poolRun ps m ((List.range n).map x)).1 t = .ret r →
      ∀ n' ≥ n, (poolRun ps m ((List.range n').map x)).1 t = .ret r := by
    intro n r hr n' hn'
    induction n', hn' using Nat.le_induction with
    | base => exact hr
    | succ n' _ ih =>
      by_cases h : ∃ ch, x n' = .run t ch
      · obtain ⟨ch, h⟩ := h
        rw [hgo n' ch h, ih]; rfl
      · rw [hstay n' fun ch hc => h ⟨ch, hc⟩, ih]
  -- the next step of goroutine `t`
  have hnext : ∀ n, ∃ n' ≥ n, ∃ ch mem, (poolRun ps m ((List.range (n' + 1)).map x)).1 t =
      (((poolRun ps m ((List.range n).map x)).1 t).step ch mem).1 := by
    intro n
    obtain ⟨N, hN, ch, hx⟩ := fair n
    induction hk : N - n generalizing n with
    | zero =>
      have : N = n := by omega
      subst this
      exact ⟨N, Nat.le_refl _, ch, _, hgo N ch hx⟩
    | succ k ih =>
      by_cases h : ∃ ch, x n = .run t ch
      · obtain ⟨ch, h⟩ := h
        exact ⟨n, Nat.le_refl _, ch, _, hgo n ch h⟩
      · obtain ⟨n', h1, ch', mem, h2⟩ := ih (n + 1) (by omega) (by omega)
        refine ⟨n', by omega, ch', mem, ?_⟩
        rw [h2, hstay n fun ch hc => h ⟨ch, hc⟩]
  suffices h : ∀ (q : PoolProg F R) n, (poolRun ps m ((List.range n).map x)).1 t = q →
      ∃ n' r, (poolRun ps m ((List.range n').map x)).1 t = .ret r by
    obtain ⟨n, r, h⟩ := h _ 0 rfl
    exact ⟨n, r, hret n r h⟩
  intro q
  induction q with
  | ret r => intro n h; exact ⟨n, r, h⟩
  | rd q i k ih =>
    intro n h
    obtain ⟨n', -, ch, mem, h'⟩ := hnext n
    rw [h] at h'
    exact ih _ _ h'
  | wr q i v k ih =>
    intro n h
    obtain ⟨n', -, ch, mem, h'⟩ := hnext n
    rw [h] at h'
    exact ih _ h'
  | rdF q k ih =>
    intro n h
    obtain ⟨n', -, ch, mem, h'⟩ := hnext n
    rw [h] at h'
    exact ih _ _ h'
  | wrF q b k ih =>
    intro n h
    obtain ⟨n', -, ch, mem, h'⟩ := hnext n
    rw [h] at h'
    exact ih _ h'
  | take k ih =>
    intro n h
    obtain ⟨n', -, ch, mem, h'⟩ := hnext n
    rw [h] at h'
    cases hf : mem.free[ch]? with
    | some b => rw [step_take_some hf] at h'; exact ih _ _ h'
    | none => rw [step_take_none hf] at h'; exact ih _ _ h'
  | give b k ih =>
    intro n h
    obtain ⟨n', -, ch, mem, h'⟩ := hnext n
    rw [h] at h'
    exact ih _ h'

end

/-! ### One scratch polynomial for all -/

/-- The same program with the scratch polynomial `b` instead of those of a pool. -/
def PoolProg.oneBuffer {F α : Type} (b : Nat) : PoolProg F α → PoolProg F α
  | .ret a => .ret a
  | .rd q i k => .rd q i fun v => (k v).oneBuffer b
  | .wr q i v k => .wr q i v (k.oneBuffer b)
  | .rdF q k => .rdF q fun v => (k v).oneBuffer b
  | .wrF q v k => .wrF q v (k.oneBuffer b)
  | .take k => (k b).oneBuffer b
  | .give _ k => k.oneBuffer b

/-- The value a program has returned. -/
def PoolProg.value {F α : Type} : PoolProg F α → Option α
  | .ret a => some a
  | _ => none

/-- Goroutine 0 adds the product of polynomials 2 and 3 to polynomial 0, goroutine 1 adds that of 3 and 3
to polynomial 1; both return the first coefficient of the sum. -/
def poolToy (t : Nat) : PoolClient (ZMod 17) (ZMod 17) :=
  if t = 0 then .call (.mulAdd 0 2 3) fun _ => .look 0 0 .done
  else if t = 1 then .call (.mulAdd 1 3 3) fun _ => .look 1 0 .done
  else .done 0

/-- All coefficients of polynomial `q` are `q`, in evaluation form; the pool is empty. -/
def poolToyMem : PoolMem (ZMod 17) := ⟨⟨fun q _ => (q : ZMod 17), fun _ => true⟩, [], 5⟩

/-- Goroutine 0 until it has filled its buffer, then goroutine 1, then goroutine 0. -/
def poolToySched : List PoolEvent :=
  List.replicate 29 (.run 0 0) ++ List.replicate 60 (.run 1 0) ++ List.replicate 40 (.run 0 0)

def poolToyOwn (t q : Nat) : Prop := q = t ∧ t < 2

def poolToyRo (q : Nat) : Prop := q = 2 ∨ q = 3

theorem poolToy_ev [Fact (Nat.Prime 17)] {ev : Evaluator (ZMod 17)}
    (hev : newCyclotomicEvaluator 17 (2 ^ 3) = .ok ev) :
    (fun t => (poolToy t).prog ev fun _ => 8) = fun t => (poolToy t).prog ⟨8, ⟨8, [], [], 0⟩⟩ fun _ => 8 := by
  obtain ⟨psi, -, -, hg⟩ := cyclotomicEv_good 17 3 le_rfl ev hev
  have hr := hg.rank
  obtain ⟨r, T⟩ := ev
  obtain rfl : r = 8 := hr
  funext t
  unfold poolToy
  split_ifs <;> rfl

theorem poolToy_one :
    ((poolRun (fun t => ((poolToy t).prog ⟨8, ⟨8, [], [], 0⟩⟩ fun _ => 8).oneBuffer 4) poolToyMem
      poolToySched).1 0).value = some 9 := by decide +kernel

theorem poolToy_alone :
    ((poolToy 0).alone ⟨8, ⟨8, [], [], 0⟩⟩ (polyAt (fun _ => 8) poolToyMem.heap)).1 = 6 := by decide +kernel

/-- C120 fails if all calls use one scratch polynomial, as with the unused type `evaluatorBuffer`
(poly.go:124-135): goroutine 0 returns 9, and alone it returns 6. -/
theorem C120_refuted_oneBuffer [Fact (Nat.Prime 17)] (ev : Evaluator (ZMod 17))
    (hev : newCyclotomicEvaluator 17 (2 ^ 3) = .ok ev) :
    ((poolRun (fun t => ((poolToy t).prog ev fun _ => 8).oneBuffer 4) poolToyMem poolToySched).1 0).value =
      some 9 ∧
    ((poolToy 0).alone ev (polyAt (fun _ => 8) poolToyMem.heap)).1 = 6 := by
  have e := poolToy_ev hev
  constructor
  · rw [show (fun t => ((poolToy t).prog ev fun _ => 8).oneBuffer 4) = fun t =>
      ((fun t => (poolToy t).prog ev fun _ => 8) t).oneBuffer 4 from rfl, e]
    exact poolToy_one
  · obtain ⟨psi, -, -, hg⟩ := cyclotomicEv_good 17 3 le_rfl ev hev
    have hr := hg.rank
    obtain ⟨r, T⟩ := ev
    obtain rfl : r = 8 := hr
    have : ((poolToy 0).alone ⟨8, T⟩ (polyAt (fun _ => 8) poolToyMem.heap)).1 =
      ((poolToy 0).alone ⟨8, ⟨8, [], [], 0⟩⟩ (polyAt (fun _ => 8) poolToyMem.heap)).1 := rfl
    rw [this]
    exact poolToy_alone

/-- A concrete case: the same goroutines and the same order of steps, with the pool. -/
theorem C120_case : ∃ (_ : Fact (Nat.Prime 17)) (ev : Evaluator (ZMod 17)),
    SharedEv 17 3 True ev ∧ PoolSetup poolToyOwn poolToyRo 5 poolToyMem ∧
    (∀ t, (poolToy t).Keeps (poolToyOwn t) poolToyRo (fun _ => 8) True) ∧
    ((poolRun (fun t => (poolToy t).prog ev fun _ => 8) poolToyMem poolToySched).1 0).value = some 6 ∧
    ((poolRun (fun t => (poolToy t).prog ev fun _ => 8) poolToyMem poolToySched).1 1).value = some 10 ∧
    (poolRun (fun t => (poolToy t).prog ev fun _ => 8) poolToyMem poolToySched).2.free = [5, 6] := by
  refine ⟨⟨by norm_num⟩, ?_⟩
  obtain ⟨ev, hev⟩ := ev17
  refine ⟨ev, ⟨le_rfl, Or.inl hev⟩, ⟨?_, ?_, ?_, ?_, le_rfl, by simp [poolToyMem], by simp [poolToyMem]⟩, ?_, ?_⟩
  · rintro t q ⟨rfl, h⟩; omega
  · rintro q (rfl | rfl) <;> omega
  · rintro t t' q hne ⟨rfl, -⟩ ⟨h, -⟩; exact hne h
  · rintro t q ⟨rfl, h⟩ (h' | h') <;> omega
  · intro t
    unfold poolToy
    split_ifs with h h'
    · subst h
      simp [PoolClient.Keeps, EvalOp.out, EvalOp.ins, poolToyOwn, poolToyRo]
    · subst h'
      simp [PoolClient.Keeps, EvalOp.out, EvalOp.ins, poolToyOwn, poolToyRo]
    · trivial
  · have e := @poolToy_ev ⟨by norm_num⟩ ev hev
    rw [e]
    exact ⟨by decide +kernel, by decide +kernel, by decide +kernel⟩

end Ringo
