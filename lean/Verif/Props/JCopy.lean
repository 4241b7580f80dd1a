import Verif.Proof.JCopyFresh

/-!
# C116: goroutines with copies of one prover

"SafeCopy returns a thread-safe copy" (jindo/prover.go:326-340).  Let provers be made by one `NewProver` and
any number of `SafeCopy`, of the first prover or of copies, and let each be used by one goroutine.  The
goroutines may share vectors, commitments and openings.
-/

namespace Ringo
open MemProg
variable {V : Type}

/-- `NewProver`, then for each `c` in `cs` a `SafeCopy` of the `c`-th prover made so far. -/
def allProvers (O : CopyOps V) (P : CopyParams) (cs : List Nat) (h₀ : CopyHeap V) :
    List (ProverObj V) × CopyHeap V :=
  let r := newProverObj O P h₀
  makeProvers O P r.1 cs [r.1] r.2

/-- Goroutine `t` uses the `t`-th prover and does `c t` (and nothing if there is no such prover). -/
def copyThreads (O : CopyOps V) (P : CopyParams) (ps : List (ProverObj V)) (c : Nat → CopyClient V)
    (r₀ : V) (t : Nat) : MemProg V V :=
  match ps[t]? with
  | some p => (c t).prog O P p
  | none => .ret r₀

section
variable {O : CopyOps V} {P : CopyParams} {cs : List Nat} {h₀ : CopyHeap V}

theorem allProvers_ok (O : CopyOps V) (P : CopyParams) (cs : List Nat) (h₀ : CopyHeap V) :
    ProversOk O P h₀.next h₀.draws (allProvers O P cs h₀).1 (allProvers O P cs h₀).2 ∧
      (allProvers O P cs h₀).1.length = cs.length + 1 := by
  obtain ⟨h1, h2⟩ := makeProvers_ok O (newProverObj O P h₀).1 cs [(newProverObj O P h₀).1]
    (newProverObj O P h₀).2 (by simp) (newProverObj_ok O P h₀)
  exact ⟨h1, h2.trans (by rw [List.length_singleton]; omega)⟩

/-- What goroutine `t` writes. -/
def threadOwn (P : CopyParams) (ps : List (ProverObj V)) (t a : Nat) : Prop :=
  ∃ p, ps[t]? = some p ∧ p.Own P a

/-- What nobody writes. -/
def threadRo (ps : List (ProverObj V)) (b a : Nat) : Prop :=
  a < b ∨ ∃ p ∈ ps, p.Ro a

theorem threads_disj {b d : Nat} {ps : List (ProverObj V)} {h : CopyHeap V}
    (k : ProversOk O P b d ps h) :
    (∀ t t' a, t ≠ t' → threadOwn P ps t a → ¬ threadOwn P ps t' a) ∧
      ∀ t a, threadOwn P ps t a → ¬ threadRo ps b a := by
  constructor
  · rintro t t' a hne ⟨p, hp, h1⟩ ⟨p', hp', h2⟩
    obtain ⟨ht, rfl⟩ := List.getElem?_eq_some_iff.1 hp
    obtain ⟨ht', rfl⟩ := List.getElem?_eq_some_iff.1 hp'
    have := List.pairwise_iff_getElem.1 k.disj
    rcases Nat.lt_or_gt_of_ne hne with hlt | hlt
    · exact this t t' ht ht' hlt a h1 h2
    · exact this t' t ht' ht hlt a h2 h1
  · rintro t a ⟨p, hp, h1⟩ (h2 | ⟨p', hp', h2⟩)
    · have := k.bounds p (List.mem_of_getElem? hp) a (Or.inl h1)
      omega
    · exact k.ro p (List.mem_of_getElem? hp) p' hp' a h1 h2

theorem threads_stay (hs : P.slots ≤ P.n) (hq : P.ringQ < h₀.next) (hq' : P.ringQOut < h₀.next)
    (hz : P.zig < h₀.next) {d : Nat} {ps : List (ProverObj V)} {h : CopyHeap V}
    (k : ProversOk O P h₀.next d ps h) (c : Nat → CopyClient V) (hc : ∀ t, (c t).Below h₀.next) (r₀ : V)
    (t : Nat) : Stays (fun a => threadOwn P ps t a ∨ threadRo ps h₀.next a) (threadOwn P ps t)
      (copyThreads O P ps c r₀ t) := by
  unfold copyThreads
  cases e : ps[t]? with
  | none => exact stays_ret _
  | some p =>
    have hp := List.mem_of_getElem? e
    refine stays_client (R := fun a => threadOwn P ps t a ∨ threadRo ps h₀.next a)
      (W := threadOwn P ps t) O (n := h₀.next) ⟨fun a ha => ⟨p, e, ha⟩, fun a ha => Or.inl ⟨p, e, ha⟩,
      fun a ha => Or.inr (Or.inr ⟨p, hp, ha⟩), Or.inr (Or.inl hq), Or.inr (Or.inl hq'),
      Or.inr (Or.inl hz), (k.rings p hp).1, (k.rings p hp).2⟩ hs (fun a ha => Or.inr (Or.inl ha)) _ (hc t)

/-- C116: in whatever order the goroutines run, each does what it would do alone: after any schedule
it has read the same values, and if it has ended it has the same results. -/
theorem C116_threads (hs : P.slots ≤ P.n) (hq : P.ringQ < h₀.next) (hq' : P.ringQOut < h₀.next)
    (hz : P.zig < h₀.next) (c : Nat → CopyClient V) (hc : ∀ t, (c t).Below h₀.next) (r₀ : V)
    (s : List Nat) (t : Nat) :
    let A := allProvers O P cs h₀
    (interleave (copyThreads O P A.1 c r₀) A.2.mem s).1 t =
      (alone (copyThreads O P A.1 c r₀ t) A.2.mem (s.count t)).1 := by
  intro A
  have k := (allProvers_ok O P cs h₀).1
  exact interleave_alone (threads_disj k).1 (threads_disj k).2 s _ _
    (threads_stay hs hq hq' hz k c hc r₀) t _ fun _ _ => rfl

/-- C116: there is no data race: two accesses of different goroutines to the same address are reads. -/
theorem C116_noRace (hs : P.slots ≤ P.n) (hq : P.ringQ < h₀.next) (hq' : P.ringQOut < h₀.next)
    (hz : P.zig < h₀.next) (c : Nat → CopyClient V) (hc : ∀ t, (c t).Below h₀.next) (r₀ : V)
    (s : List Nat) :
    let A := allProvers O P cs h₀
    ∀ x ∈ accesses (copyThreads O P A.1 c r₀) A.2.mem s,
    ∀ y ∈ accesses (copyThreads O P A.1 c r₀) A.2.mem s,
      x.1 ≠ y.1 → x.2.1 = y.2.1 → x.2.2 = false ∧ y.2.2 = false := by
  intro A x hx y hy hne he
  have k := (allProvers_ok O P cs h₀).1
  obtain ⟨hd, hr⟩ := threads_disj k
  have hst := threads_stay hs hq hq' hz k c hc r₀
  have h1 := accesses_stay s _ _ hst x hx
  have h2 := accesses_stay s _ _ hst y hy
  rw [← he] at h2
  have w1 : x.2.2 = true → threadOwn P A.1 x.1 x.2.1 := fun h => by rw [if_pos h] at h1; exact h1
  have w2 : y.2.2 = true → threadOwn P A.1 y.1 x.2.1 := fun h => by rw [if_pos h] at h2; exact h2
  have r1 : threadOwn P A.1 x.1 x.2.1 ∨ threadRo A.1 h₀.next x.2.1 := by
    split_ifs at h1
    · exact Or.inl h1
    · exact h1
  have r2 : threadOwn P A.1 y.1 x.2.1 ∨ threadRo A.1 h₀.next x.2.1 := by
    split_ifs at h2
    · exact Or.inl h2
    · exact h2
  constructor
  · by_contra hw
    have hw := w1 (by simpa using hw)
    rcases r2 with h | h
    · exact hd _ _ _ hne hw h
    · exact hr _ _ hw h
  · by_contra hw
    have hw := w2 (by simpa using hw)
    rcases r1 with h | h
    · exact hd _ _ _ hne h hw
    · exact hr _ _ hw h

/-- C116: the objects of the caller, the rings, the commitment keys and the tables do not change. -/
theorem C116_args (hs : P.slots ≤ P.n) (hq : P.ringQ < h₀.next) (hq' : P.ringQOut < h₀.next)
    (hz : P.zig < h₀.next) (c : Nat → CopyClient V) (hc : ∀ t, (c t).Below h₀.next) (r₀ : V)
    (s : List Nat) :
    let A := allProvers O P cs h₀
    let m := (interleave (copyThreads O P A.1 c r₀) A.2.mem s).2
    (∀ a < h₀.next, m a = h₀.mem a) ∧ ∀ p ∈ A.1, m p.ck = A.2.mem p.ck := by
  intro A m
  have k := (allProvers_ok O P cs h₀).1
  have hst := threads_stay hs hq hq' hz k c hc r₀
  have hkeep : ∀ a < h₀.next, A.2.mem a = h₀.mem a := by
    have : ∀ (cs : List Nat) (ps : List (ProverObj V)) (p₀ : ProverObj V) (h : CopyHeap V),
        h₀.next ≤ h.next → (∀ a < h₀.next, h.mem a = h₀.mem a) →
        ∀ a < h₀.next, (makeProvers O P p₀ cs ps h).2.mem a = h₀.mem a := by
      intro cs
      induction cs with
      | nil => intro ps p₀ h _ hm; exact hm
      | cons i cs ih =>
        intro ps p₀ h hle hm
        have hn := (safeCopy_addrs O P (ps.getD i p₀) h).2.1
        refine ih (ps ++ [((ps.getD i p₀).safeCopy O P h).1]) p₀ ((ps.getD i p₀).safeCopy O P h).2
          (by omega) fun a ha => ?_
        rw [(safeCopy_mem O P (ps.getD i p₀) h).1 a (by omega), hm a ha]
    refine this cs _ _ _ ?_ (newProverObj_mem O P h₀).1
    have := (newProverObj_addrs O P h₀).2.1
    omega
  refine ⟨fun a ha => ?_, fun p hp => ?_⟩
  · rw [← hkeep a ha]
    exact interleave_frame s (fun t ho => (threads_disj k).2 t a ho (Or.inl ha)) _ _ hst
  · exact interleave_frame s (fun t ho => (threads_disj k).2 t _ ho
      (Or.inr ⟨p, hp, by simp [ProverObj.Ro]⟩)) _ _ hst

/-- C116: no two samplers share their state or their seed: the `j`-th sampler of the `i`-th prover is a
cell of its own and has been seeded with the `(7 i + j)`-th seed read from `crypto/rand`. -/
theorem C116_seeds :
    let A := allProvers O P cs h₀
    let samplers := A.1.flatMap fun p =>
      [p.ecd.twin.base, p.ecd.cosac.base, p.ecd.cosac.rounded, p.ecd.rounded, p.uniform, p.rounded,
        p.mlwe.base]
    samplers.Nodup ∧ A.1.length = cs.length + 1 ∧
      samplers.map A.2.mem =
        (List.range (7 * (cs.length + 1))).map fun k => O.fn .seeded [O.entropy (h₀.draws + k)] := by
  intro A samplers
  obtain ⟨k, hl⟩ := allProvers_ok O P cs h₀
  refine ⟨k.nodup, hl, ?_⟩
  rw [← hl]
  exact k.seeds

/-- C116: what a prover returns depends on its samplers and its arguments, not on what it or any other
prover has done before: after two histories that leave its samplers in the same state it returns the
same. -/
theorem C116_history (hs : P.slots ≤ P.n) (hq : P.ringQ < h₀.next) (hq' : P.ringQOut < h₀.next)
    (hz : P.zig < h₀.next) (c c' : Nat → CopyClient V) (hc : ∀ t, (c t).Below h₀.next)
    (hc' : ∀ t, (c' t).Below h₀.next) (r₀ : V) (s s' : List Nat) :
    let A := allProvers O P cs h₀
    let m := (interleave (copyThreads O P A.1 c r₀) A.2.mem s).2
    let m' := (interleave (copyThreads O P A.1 c' r₀) A.2.mem s').2
    ∀ p ∈ A.1, (∀ a ∈ [p.ecd.twin.base, p.ecd.cosac.base, p.ecd.cosac.rounded, p.ecd.rounded,
      p.uniform, p.rounded, p.mlwe.base], m a = m' a) →
      ∀ d : CopyClient V, d.Below h₀.next → ((d.prog O P p).run m).1 = ((d.prog O P p).run m').1 := by
  intro A m m' p hp hsm d hd
  have k := (allProvers_ok O P cs h₀).1
  have hst := threads_stay hs hq hq' hz k c hc r₀
  have hst' := threads_stay hs hq hq' hz k c' hc' r₀
  have hlow : ∀ a < h₀.next, ¬ ((∃ t, threadOwn P A.1 t a) ∧ a ∉ p.samplers) := by
    rintro a ha ⟨⟨t, ho⟩, -⟩
    exact (threads_disj k).2 t a ho (Or.inl ha)
  refine ((fresh_client O (B := fun a => (∃ t, threadOwn P A.1 t a) ∧ a ∉ p.samplers)
    ⟨?_, ?_, hlow _ hq, hlow _ hq', hlow _ hz, (k.rings p hp).1, (k.rings p hp).2⟩ hs hlow d
    (D := fun _ => False) hd).run_eq m m' ?_).1
  · rintro a ha ⟨⟨t, ho⟩, -⟩
    exact (threads_disj k).2 t a ho (Or.inr ⟨p, hp, ha⟩)
  · rintro a ha ⟨-, hn⟩
    exact hn ha
  · intro a ha
    by_cases hmem : a ∈ p.samplers
    · exact hsm a hmem
    · have hno : ∀ t, ¬ threadOwn P A.1 t a := fun t ho => ha ⟨⟨t, ho⟩, hmem⟩
      exact (interleave_frame s hno _ _ hst).trans (interleave_frame s' hno _ _ hst').symm

theorem makeProvers_ck (O : CopyOps V) (P : CopyParams) (p₀ : ProverObj V) (cs : List Nat) :
    ∀ (ps : List (ProverObj V)) (h : CopyHeap V), (∀ p ∈ ps, p.ck = p₀.ck) →
      ∀ p ∈ (makeProvers O P p₀ cs ps h).1, p.ck = p₀.ck := by
  induction cs with
  | nil => intro ps h hp; exact hp
  | cons i cs ih =>
    intro ps h hp
    have hc : (ps.getD i p₀).ck = p₀.ck := by
      rw [List.getD_eq_getElem?_getD]
      cases e : ps[i]? with
      | none => rfl
      | some x => simpa using hp x (List.mem_of_getElem? e)
    refine ih (ps ++ [((ps.getD i p₀).safeCopy O P h).1]) ((ps.getD i p₀).safeCopy O P h).2 ?_
    intro p hm
    rw [List.mem_append, List.mem_singleton] at hm
    rcases hm with hm | rfl
    · exact hp p hm
    · exact hc

/-- C116: `Evaluate` returns the same on every copy, whatever has been done before. -/
theorem C116_evaluate (hs : P.slots ≤ P.n) (hq : P.ringQ < h₀.next) (hq' : P.ringQOut < h₀.next)
    (hz : P.zig < h₀.next) (c c' : Nat → CopyClient V) (hc : ∀ t, (c t).Below h₀.next)
    (hc' : ∀ t, (c' t).Below h₀.next) (r₀ : V) (s s' : List Nat) :
    let A := allProvers O P cs h₀
    let m := (interleave (copyThreads O P A.1 c r₀) A.2.mem s).2
    let m' := (interleave (copyThreads O P A.1 c' r₀) A.2.mem s').2
    ∀ p ∈ A.1, ∀ p' ∈ A.1, ∀ (x : V) (args : List (CallArg V)), (∀ y ∈ args, y.Below h₀.next) →
      ((evaluateProg O P p x args).run m).1 = ((evaluateProg O P p' x args).run m').1 := by
  intro A m m' p hp p' hp' x args ha
  have k := (allProvers_ok O P cs h₀).1
  have hst := threads_stay hs hq hq' hz k c hc r₀
  have hst' := threads_stay hs hq hq' hz k c' hc' r₀
  have hck : ∀ q ∈ A.1, q.ck = (newProverObj O P h₀).1.ck :=
    makeProvers_ck O P _ cs _ _ (by simp)
  have hown : ∀ q ∈ A.1, ∀ a, q.Own P a → ∃ t, threadOwn P A.1 t a := by
    intro q hq a h
    obtain ⟨t, ht⟩ := List.getElem?_of_mem hq
    exact ⟨t, q, ht, h⟩
  have hlow : ∀ a < h₀.next, ¬ ∃ t, threadOwn P A.1 t a := by
    rintro a ha ⟨t, ho⟩
    exact (threads_disj k).2 t a ho (Or.inl ha)
  refine evaluate_rel O (K := fun a => ¬ ∃ t, threadOwn P A.1 t a) (n := h₀.next)
    (fun h => h (hown p hp _ (by simp [ProverObj.Own])))
    (fun h => h (hown p' hp' _ (by simp [ProverObj.Own]))) ((hck p hp).trans (hck p' hp').symm) ?_
    (hlow _ hq) (hlow _ hq') hlow x ha m m' ?_
  · rintro ⟨t, ho⟩
    exact (threads_disj k).2 t _ ho (Or.inr ⟨p, hp, by simp [ProverObj.Ro]⟩)
  · intro a h
    have hno : ∀ t, ¬ threadOwn P A.1 t a := fun t ho => h ⟨t, ho⟩
    exact (interleave_frame s hno _ _ hst).trans (interleave_frame s' hno _ _ hst').symm

end

/-! ### One prover for two goroutines -/

/-- Numbers for values: digits in base 2, polynomials as decimal numbers, proofs as the encoding of the
one entry of `leftVec`. -/
def toyOps : CopyOps Nat where
  fn f l := match f, l with
    | .left _, [x] => x
    | .slice, [x] => x
    | .rem, [x] => x % 2
    | .quot, [x] => x / 2
    | .last, [x] => x
    | .basePoly, ds => ds.foldr (fun d n => d + 10 * n) 0
    | .transform, [f, _] => f
    | .proof, l => l.getLastD 0
    | .seeded, [x] => 1000 + x
    | .word, [x] => x
    | .nextState, [x] => x + 1
    | _, _ => 0
  test _ _ := true
  entropy k := k

def toyParams : CopyParams := ⟨1, 1, 1, 3, 3, 1, 3, 1, 1, 1, 1, 2, 0, 1, 2⟩

def toyHeap : CopyHeap Nat := ⟨5, 0, fun a => a⟩

/-- Goroutine 0 evaluates at 2, all others at 5. -/
def toyClients : Nat → CopyClient Nat
  | 0 => .evaluate 2 [.addr 3, .addr 4] .done
  | _ => .evaluate 5 [.addr 3, .addr 4] .done

/-- Goroutine 0 has filled its buffer when goroutine 1 runs. -/
def toySched : List Nat := List.replicate 6 0 ++ List.replicate 20 1 ++ List.replicate 20 0

/-- The claim for provers that are not copied is false: if two goroutines use the same prover, the proof
of the first can be wrong. -/
theorem C116_refuted_shared :
    let A := allProvers toyOps toyParams [] toyHeap
    ∀ p ∈ A.1, let both := fun t => (toyClients t).prog toyOps toyParams p
      ((interleave both A.2.mem toySched).1 0).result = some 1 ∧
      (alone (both 0) A.2.mem (toySched.count 0)).1.result = some 10 := by
  intro A p hp
  have hA : A.1 = [(newProverObj toyOps toyParams toyHeap).1] := rfl
  rw [hA, List.mem_singleton] at hp
  subst hp
  decide +kernel

/-- A concrete case: the same schedule with a copy of a copy. -/
theorem C116_case :
    let A := allProvers toyOps toyParams [0, 1] toyHeap
    let r := interleave (copyThreads toyOps toyParams A.1 toyClients 0) A.2.mem toySched
    (r.1 0).result = some 10 ∧ (r.1 1).result = some 101 ∧
      toyParams.slots ≤ toyParams.n ∧ toyParams.ringQ < toyHeap.next ∧
      toyParams.ringQOut < toyHeap.next ∧ toyParams.zig < toyHeap.next ∧
      ∀ t, (toyClients t).Below toyHeap.next := by
  refine ⟨by decide +kernel, by decide +kernel, by decide, by decide, by decide, by decide, fun t => ?_⟩
  have h : ∀ y ∈ [CallArg.addr 3, CallArg.addr 4], CallArg.Below (V := Nat) 5 y := by
    intro y hy
    simp only [List.mem_cons, List.not_mem_nil, or_false] at hy
    rcases hy with rfl | rfl <;> simp [CallArg.Below]
  cases t with
  | zero => exact ⟨h, fun _ => trivial⟩
  | succ n => exact ⟨h, fun _ => trivial⟩

end Ringo
