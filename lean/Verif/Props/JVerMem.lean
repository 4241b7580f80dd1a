import Verif.Proof.JVerMem

/-!
# C119: goroutines with verifiers of their own

A `Verifier` (jindo/verifier.go:12-23) has buffers, and there is no `SafeCopy`.  Let any number of
verifiers be made by `NewVerifier` with the same parameters and the same reference string, and let each be
used by one goroutine.  The goroutines may share commitments, evaluations and proofs.
-/

namespace Ringo
open MemProg
variable {V : Type}

/-- Goroutine `t` uses the `t`-th verifier and does `c t` (and nothing if there is no such verifier). -/
def verifyThreads (O : CopyOps V) (P : CopyParams) (vs : List (VerifierObj V)) (c : Nat → VerifyClient V)
    (r₀ : V) (t : Nat) : MemProg V V :=
  match vs[t]? with
  | some v => (c t).prog O P v
  | none => .ret r₀

section
variable {O : CopyOps V} {P : CopyParams} {k : Nat} {h₀ : CopyHeap V}

/-- What goroutine `t` writes. -/
def verifyOwn (O : CopyOps V) (P : CopyParams) (b k t a : Nat) : Prop :=
  t < k ∧ (verifierAt O P (b + t * verifierSize P)).Own P a

/-- What nobody writes. -/
def verifyRo (O : CopyOps V) (P : CopyParams) (b k a : Nat) : Prop :=
  a < b ∨ ∃ t < k, (verifierAt O P (b + t * verifierSize P)).Ro a

theorem verifiers_apart {b t t' a : Nat}
    (h : b + t * verifierSize P ≤ a ∧ a < b + t * verifierSize P + verifierSize P)
    (h' : b + t' * verifierSize P ≤ a ∧ a < b + t' * verifierSize P + verifierSize P) : t = t' := by
  rcases Nat.lt_trichotomy t t' with hlt | he | hlt
  · have := Nat.mul_le_mul_right (verifierSize P) (Nat.succ_le_of_lt hlt)
    rw [Nat.succ_mul] at this
    omega
  · exact he
  · have := Nat.mul_le_mul_right (verifierSize P) (Nat.succ_le_of_lt hlt)
    rw [Nat.succ_mul] at this
    omega

theorem verify_disj (b : Nat) :
    (∀ t t' a, t ≠ t' → verifyOwn O P b k t a → ¬ verifyOwn O P b k t' a) ∧
      ∀ t a, verifyOwn O P b k t a → ¬ verifyRo O P b k a := by
  constructor
  · rintro t t' a hne ⟨-, h⟩ ⟨-, h'⟩
    exact hne (verifiers_apart (verifierAt_bounds O P _ a (Or.inl h))
      (verifierAt_bounds O P _ a (Or.inl h')))
  · rintro t a ⟨-, h⟩ (h' | ⟨t', -, h'⟩)
    · have := verifierAt_bounds O P _ a (Or.inl h)
      omega
    · have e := verifiers_apart (verifierAt_bounds O P _ a (Or.inl h))
        (verifierAt_bounds O P _ a (Or.inr h'))
      subst e
      exact verifierAt_ro O P _ a h h'

theorem newVerifiers_get (O : CopyOps V) (P : CopyParams) (k : Nat) (h₀ : CopyHeap V) {t : Nat}
    {v : VerifierObj V} (h : (newVerifiers O P k h₀).1[t]? = some v) :
    t < k ∧ v = verifierAt O P (h₀.next + t * verifierSize P) := by
  rw [(newVerifiers_ok O P k h₀).1] at h
  obtain ⟨ht, he⟩ := List.getElem?_eq_some_iff.1 h
  simp only [List.length_map, List.length_range] at ht
  refine ⟨ht, ?_⟩
  rw [← he]
  simp

theorem verify_stay (hs : P.slots * P.exp ≤ P.n) (hq : P.ringQ < h₀.next) (hq' : P.ringQOut < h₀.next)
    (c : Nat → VerifyClient V) (hc : ∀ t, (c t).Below h₀.next) (r₀ : V) (t : Nat) :
    Stays (fun a => verifyOwn O P h₀.next k t a ∨ verifyRo O P h₀.next k a) (verifyOwn O P h₀.next k t)
      (verifyThreads O P (newVerifiers O P k h₀).1 c r₀ t) := by
  unfold verifyThreads
  cases e : (newVerifiers O P k h₀).1[t]? with
  | none => exact stays_ret _
  | some v =>
    obtain ⟨ht, rfl⟩ := newVerifiers_get O P k h₀ e
    exact stays_verifyClient (R := fun a => verifyOwn O P h₀.next k t a ∨ verifyRo O P h₀.next k a)
      (W := verifyOwn O P h₀.next k t) O (n := h₀.next)
      ⟨fun a ha => ⟨Or.inl ⟨ht, ha⟩, ht, ha⟩, fun a ha => Or.inr (Or.inr ⟨t, ht, ha⟩),
        Or.inr (Or.inl hq), Or.inr (Or.inl hq'), rfl, rfl, rfl⟩ hs
      (fun a ha => Or.inr (Or.inl ha)) _ (hc t)

/-- C119: in whatever order the goroutines run, each does what it would do alone: after any schedule
it has read the same values, and if it has ended it has the same answers. -/
theorem C119_threads (hs : P.slots * P.exp ≤ P.n) (hq : P.ringQ < h₀.next)
    (hq' : P.ringQOut < h₀.next) (c : Nat → VerifyClient V) (hc : ∀ t, (c t).Below h₀.next) (r₀ : V)
    (s : List Nat) (t : Nat) :
    let A := newVerifiers O P k h₀
    (interleave (verifyThreads O P A.1 c r₀) A.2.mem s).1 t =
      (alone (verifyThreads O P A.1 c r₀ t) A.2.mem (s.count t)).1 := by
  intro A
  exact interleave_alone (verify_disj (O := O) (P := P) (k := k) h₀.next).1 (verify_disj h₀.next).2 s _ _
    (verify_stay hs hq hq' c hc r₀) t _ fun _ _ => rfl

/-- C119: there is no data race: two accesses of different goroutines to the same address are reads. -/
theorem C119_noRace (hs : P.slots * P.exp ≤ P.n) (hq : P.ringQ < h₀.next)
    (hq' : P.ringQOut < h₀.next) (c : Nat → VerifyClient V) (hc : ∀ t, (c t).Below h₀.next) (r₀ : V)
    (s : List Nat) :
    let A := newVerifiers O P k h₀
    ∀ x ∈ accesses (verifyThreads O P A.1 c r₀) A.2.mem s,
    ∀ y ∈ accesses (verifyThreads O P A.1 c r₀) A.2.mem s,
      x.1 ≠ y.1 → x.2.1 = y.2.1 → x.2.2 = false ∧ y.2.2 = false := by
  intro A x hx y hy hne he
  obtain ⟨hd, hr⟩ := verify_disj (O := O) (P := P) (k := k) h₀.next
  have hst := verify_stay (O := O) (k := k) hs hq hq' c hc r₀
  have h1 := accesses_stay s _ _ hst x hx
  have h2 := accesses_stay s _ _ hst y hy
  rw [← he] at h2
  cases hw : x.2.2 <;> cases hw' : y.2.2 <;> rw [hw] at h1 <;> rw [hw'] at h2 <;>
    simp only [if_true, Bool.false_eq_true, if_false] at h1 h2
  · exact ⟨rfl, rfl⟩
  · rcases h1 with h | h
    · exact (hd _ _ _ hne h h2).elim
    · exact (hr _ _ h2 h).elim
  · rcases h2 with h | h
    · exact (hd _ _ _ hne h1 h).elim
    · exact (hr _ _ h1 h).elim
  · exact (hd _ _ _ hne h1 h2).elim

/-- C119: the objects of the caller, the rings and the commitment keys do not change. -/
theorem C119_args (hs : P.slots * P.exp ≤ P.n) (hq : P.ringQ < h₀.next)
    (hq' : P.ringQOut < h₀.next) (c : Nat → VerifyClient V) (hc : ∀ t, (c t).Below h₀.next) (r₀ : V)
    (s : List Nat) :
    let A := newVerifiers O P k h₀
    let m := (interleave (verifyThreads O P A.1 c r₀) A.2.mem s).2
    (∀ a < h₀.next, m a = h₀.mem a) ∧ ∀ v ∈ A.1, m v.ck = O.fn .commitKey [] := by
  intro A m
  obtain ⟨-, hm, htb⟩ := newVerifiers_ok O P k h₀
  have hst := verify_stay (O := O) (k := k) hs hq hq' c hc r₀
  have hno := (verify_disj (O := O) (P := P) (k := k) h₀.next).2
  refine ⟨fun a ha => ?_, fun v hv => ?_⟩
  · rw [← hm a ha]
    exact interleave_frame s (fun t ho => hno t a ho (Or.inl ha)) _ _ hst
  · obtain ⟨t, ht⟩ := List.getElem?_of_mem hv
    obtain ⟨hlt, rfl⟩ := newVerifiers_get O P k h₀ ht
    rw [← (htb t hlt).2.2.2.1]
    exact interleave_frame s (fun t' ho => hno t' _ ho
      (Or.inr ⟨t, hlt, by simp [VerifierObj.Ro]⟩)) _ _ hst

theorem answer_le (hs : P.slots * P.exp ≤ P.n) (hq : P.ringQ < h₀.next) (hq' : P.ringQOut < h₀.next)
    (c c' : Nat → VerifyClient V) (hc : ∀ t, (c t).Below h₀.next) (hc' : ∀ t, (c' t).Below h₀.next)
    (r₀ : V) (s s' : List Nat) {t t' : Nat} (ht' : t' < k) (hle : t ≤ t') (x : V)
    {com ys : List (CallArg V)} {pf : CallArg V} (h1 : ∀ y ∈ com, y.Below h₀.next)
    (h2 : ∀ y ∈ ys, y.Below h₀.next) (h3 : pf.Below h₀.next) :
    let A := newVerifiers O P k h₀
    let m := (interleave (verifyThreads O P A.1 c r₀) A.2.mem s).2
    let m' := (interleave (verifyThreads O P A.1 c' r₀) A.2.mem s').2
    let v := verifierAt O P (h₀.next + t * verifierSize P)
    let v' := verifierAt O P (h₀.next + t' * verifierSize P)
    ((verifyProg O P v x com ys pf).run m).1 = ((verifyProg O P v' x com ys pf).run m').1 := by
  intro A m m' v v'
  obtain ⟨-, hm, htb⟩ := newVerifiers_ok O P k h₀
  have hno := (verify_disj (O := O) (P := P) (k := k) h₀.next).2
  have hst := verify_stay (O := O) (k := k) hs hq hq' c hc r₀
  have hst' := verify_stay (O := O) (k := k) hs hq hq' c' hc' r₀
  have fm : ∀ a, verifyRo O P h₀.next k a → m a = A.2.mem a := fun a ha =>
    interleave_frame s (fun t ho => hno t a ho ha) _ _ hst
  have fm' : ∀ a, verifyRo O P h₀.next k a → m' a = A.2.mem a := fun a ha =>
    interleave_frame s' (fun t ho => hno t a ho ha) _ _ hst'
  obtain ⟨d, hd⟩ : ∃ d, h₀.next + t' * verifierSize P = h₀.next + t * verifierSize P + d :=
    ⟨t' * verifierSize P - t * verifierSize P, by
      have := Nat.mul_le_mul_right (verifierSize P) hle
      omega⟩
  let σ : Nat → Nat := fun a => if a < h₀.next then a else a + d
  have hσ : ∀ a b, σ a = σ b → a = b := by
    intro a b h
    simp only [σ] at h
    split_ifs at h <;> omega
  have hlow : ∀ a < h₀.next, σ a = a := fun a ha => if_pos ha
  have hhigh : ∀ a, h₀.next ≤ a → σ a = a + d := fun a ha => if_neg (by omega)
  have hv : v' = v.at σ := by
    simp only [v, v', VerifierObj.at, EncObj.at, RnsObj.at, EncBufObj.at, verifierAt, hlow _ hq,
      hlow _ hq', hd]
    simp only [VerifierObj.mk.injEq, EncObj.mk.injEq, TwinObj.mk.injEq, CosacObj.mk.injEq,
      RnsObj.mk.injEq, EncBufObj.mk.injEq, true_and]
    and_intros <;> (rw [hhigh _ (by omega)]; try omega)
  have hb : ∀ i, σ (v.ecd.buf.coeffBig + i) = σ v.ecd.buf.coeffBig + i := by
    intro i
    have : h₀.next ≤ v.ecd.buf.coeffBig := by
      simp only [v, verifierAt]
      omega
    rw [hhigh _ (by omega), hhigh _ this]
    omega
  rw [hv, ← rename_verify O v hlow hq hq' hb x h1 h2 h3, run_rename hσ]
  refine ((fresh_verify O (B := fun a => ¬ (a < h₀.next ∨ v.Ro a)) (D := fun _ => False)
    ⟨fun a ha h => h (Or.inr ha), fun h => h (Or.inl hq), fun h => h (Or.inl hq'), rfl, rfl, rfl⟩ hs
    (n := h₀.next) (fun a ha h => h (Or.inl ha)) x h1 h2 h3).run_eq m _ ?_).1
  intro a ha
  have ha : a < h₀.next ∨ v.Ro a := by
    by_contra h
    exact ha h
  rcases ha with ha | ha
  · rw [hlow a ha, fm a (Or.inl ha), fm' a (Or.inl ha)]
  · have hlt : t < k := by omega
    obtain ⟨t1, t2, t3, t4, t5, t6, t7, t8⟩ := htb t hlt
    obtain ⟨u1, u2, u3, u4, u5, u6, u7, u8⟩ : v'.Tables O A.2.mem := htb t' ht'
    rw [hv] at u1 u2 u3 u4 u5 u6 u7 u8
    have hro' : v'.Ro (σ a) := by
      rw [hv]
      rcases ha with e | e | e | e | e | e | e | e <;> subst e <;>
        simp [VerifierObj.Ro, VerifierObj.at, EncObj.at, RnsObj.at]
    rw [fm a (Or.inr ⟨t, hlt, ha⟩), fm' _ (Or.inr ⟨t', ht', hro'⟩)]
    rcases ha with e | e | e | e | e | e | e | e <;> subst e
    · exact t3.trans u3.symm
    · exact t1.trans u1.symm
    · exact t2.trans u2.symm
    · exact t4.trans u4.symm
    · exact t6.trans u6.symm
    · exact t5.trans u5.symm
    · exact t8.trans u8.symm
    · exact t7.trans u7.symm

/-- C119: the answer of `Verify` depends on its arguments only: two verifiers of the same parameters and
reference string give the same answer, whatever they and all the others have done before. -/
theorem C119_answer (hs : P.slots * P.exp ≤ P.n) (hq : P.ringQ < h₀.next)
    (hq' : P.ringQOut < h₀.next) (c c' : Nat → VerifyClient V) (hc : ∀ t, (c t).Below h₀.next)
    (hc' : ∀ t, (c' t).Below h₀.next) (r₀ : V) (s s' : List Nat) (x : V)
    (com ys : List (CallArg V)) (pf : CallArg V) (h1 : ∀ y ∈ com, y.Below h₀.next)
    (h2 : ∀ y ∈ ys, y.Below h₀.next) (h3 : pf.Below h₀.next) :
    let A := newVerifiers O P k h₀
    let m := (interleave (verifyThreads O P A.1 c r₀) A.2.mem s).2
    let m' := (interleave (verifyThreads O P A.1 c' r₀) A.2.mem s').2
    ∀ v ∈ A.1, ∀ v' ∈ A.1,
      ((verifyProg O P v x com ys pf).run m).1 = ((verifyProg O P v' x com ys pf).run m').1 := by
  intro A m m' v hv v' hv'
  obtain ⟨t, ht⟩ := List.getElem?_of_mem hv
  obtain ⟨hlt, rfl⟩ := newVerifiers_get O P k h₀ ht
  obtain ⟨t', ht'⟩ := List.getElem?_of_mem hv'
  obtain ⟨hlt', rfl⟩ := newVerifiers_get O P k h₀ ht'
  rcases Nat.le_total t t' with hle | hle
  · exact answer_le hs hq hq' c c' hc hc' r₀ s s' hlt' hle x h1 h2 h3
  · exact (answer_le hs hq hq' c' c hc' hc r₀ s' s hlt hle x h1 h2 h3).symm

end

/-! ### One verifier for two goroutines -/

/-- Numbers for values: a proof is a constant polynomial, whose value at every point is that constant;
norms and consistency are always fine. -/
def verifyToyOps : CopyOps Nat where
  fn f l := match f, l with
    | .invPartial _, [_, p] => p
    | .small 0, [p, _] => p
    | .bigElem, [c] => c
    | .baseElem, [] => 2
    | .horner, [x, b, y] => x * b + y
    | .yBatch, y :: _ => y
    | _, _ => 0
  test f l := match f, l with
    | .evalEq, _ :: y :: d :: _ => d == y
    | _, _ => true
  entropy k := k

/-- `rows`, `cols` and `slots` are 1 and the polynomials have three coefficients. -/
def verifyToyParams : CopyParams := ⟨1, 1, 1, 3, 3, 1, 3, 1, 1, 1, 1, 2, 0, 1, 2⟩

/-- The proof at 3 is a proof of 5, the one at 4 a proof of 7. -/
def verifyToyHeap : CopyHeap Nat := ⟨5, 0, fun a => if a = 3 then 5 else if a = 4 then 7 else 0⟩

/-- Goroutine 0 verifies the proof of 5 for the value 7, all others the proof of 7 for 7. -/
def verifyToyClients : Nat → VerifyClient Nat
  | 0 => .verify 2 [.val 0] [.val 7] (.addr 3) fun b => .done (if b then 1 else 0)
  | _ => .verify 2 [.val 0] [.val 7] (.addr 4) fun b => .done (if b then 1 else 0)

/-- Goroutine 0 has filled `coeffBig` when goroutine 1 runs. -/
def verifyToySched : List Nat :=
  List.replicate 55 0 ++ (List.replicate 68 1 ++ List.replicate 13 0)

/-! Evaluating programs on numbers step by step. -/

/-- `k v`, with `v` evaluated first. -/
def forced {β : Type} (v : Nat) (k : Nat → β) : β :=
  match v with
  | 0 => k 0
  | n + 1 => k (n + 1)

theorem forced_eq {β : Type} (v : Nat) (k : Nat → β) : forced v k = k v := by cases v <;> rfl

/-- `n` accesses, and then `κ`. -/
def stepping {α γ : Type} : Nat → MemProg Nat α → (Nat → Nat) →
    (MemProg Nat α → (Nat → Nat) → γ) → γ
  | 0, p, m, κ => κ p m
  | _ + 1, .ret a, m, κ => κ (.ret a) m
  | n + 1, .rd a k, m, κ => forced (m a) fun v => stepping n (k v) m κ
  | n + 1, .wr a v k, m, κ => forced v fun v => stepping n k (Function.update m a v) κ

theorem alone_ret {α : Type} (a : α) (m : Nat → V) (n : Nat) : alone (.ret a) m n = (.ret a, m) := by
  induction n with
  | zero => rfl
  | succ n ih => exact ih

theorem stepping_eq {α γ : Type} (n : Nat) : ∀ (p : MemProg Nat α) (m : Nat → Nat)
    (κ : MemProg Nat α → (Nat → Nat) → γ), stepping n p m κ = κ (alone p m n).1 (alone p m n).2 := by
  induction n with
  | zero => intro p m κ; rfl
  | succ n ih =>
    intro p m κ
    cases p with
    | ret a => rw [alone_ret]; rfl
    | rd a k => rw [stepping, forced_eq, ih]; rfl
    | wr a v k => rw [stepping, forced_eq, ih]; rfl

theorem interleave_replicate {α : Type} (t n : Nat) (s : List Nat) : ∀ (ps : Nat → MemProg V α)
    (m : Nat → V), interleave ps m (List.replicate n t ++ s) =
      interleave (Function.update ps t (alone (ps t) m n).1) (alone (ps t) m n).2 s := by
  induction n with
  | zero => intro ps m; simp [alone]
  | succ n ih =>
    intro ps m
    rw [List.replicate_succ, List.cons_append]
    refine (ih _ _).trans ?_
    simp only [Function.update_self, Function.update_idem]
    rfl

/-- Goroutine 0, then 1, then 0 again. -/
theorem interleave_three {α : Type} (ps : Nat → MemProg Nat α) (m : Nat → Nat) (i j k : Nat) :
    let r := interleave ps m (List.replicate i 0 ++ (List.replicate j 1 ++ List.replicate k 0))
    ((r.1 0).result, (r.1 1).result) =
      stepping i (ps 0) m fun p m => stepping j (ps 1) m fun q m =>
        stepping k p m fun p _ => (p.result, q.result) := by
  simp only [stepping_eq, interleave_replicate]
  rw [← List.append_nil (List.replicate k 0), interleave_replicate]
  simp [interleave, Function.update]

/-- The claim for one verifier is false: if two goroutines use the same verifier, the first can accept
a proof that it rejects alone. -/
theorem C119_refuted_shared :
    let A := newVerifiers verifyToyOps verifyToyParams 1 verifyToyHeap
    ∀ v ∈ A.1, let both := fun t => (verifyToyClients t).prog verifyToyOps verifyToyParams v
      ((interleave both A.2.mem verifyToySched).1 0).result = some 1 ∧
      (alone (both 0) A.2.mem (verifyToySched.count 0)).1.result = some 0 := by
  intro A v hv
  obtain ⟨t, ht⟩ := List.getElem?_of_mem hv
  obtain ⟨h1, rfl⟩ := newVerifiers_get verifyToyOps verifyToyParams 1 verifyToyHeap ht
  obtain rfl : t = 0 := by omega
  intro both
  have h := interleave_three both A.2.mem 55 68 13
  have h' : (stepping 55 (both 0) A.2.mem fun p m => stepping 68 (both 1) m fun q m =>
      stepping 13 p m fun p _ => (p.result, q.result)) = (some 1, some 1) := by decide +kernel
  have h2 := stepping_eq (verifyToySched.count 0) (both 0) A.2.mem fun p _ => p.result
  have h2' : (stepping (verifyToySched.count 0) (both 0) A.2.mem fun p _ => p.result) = some 0 := by
    decide +kernel
  exact ⟨(Prod.mk.inj (h.trans h')).1, h2.symm.trans h2'⟩

/-- A concrete case: the same schedule with two verifiers. -/
theorem C119_case :
    let A := newVerifiers verifyToyOps verifyToyParams 2 verifyToyHeap
    let r := interleave (verifyThreads verifyToyOps verifyToyParams A.1 verifyToyClients 9) A.2.mem
      verifyToySched
    (r.1 0).result = some 0 ∧ (r.1 1).result = some 1 ∧
      verifyToyParams.slots * verifyToyParams.exp ≤ verifyToyParams.n ∧
      verifyToyParams.ringQ < verifyToyHeap.next ∧ verifyToyParams.ringQOut < verifyToyHeap.next ∧
      ∀ t, (verifyToyClients t).Below verifyToyHeap.next := by
  intro A r
  have h := interleave_three (verifyThreads verifyToyOps verifyToyParams A.1 verifyToyClients 9)
    A.2.mem 55 68 13
  have h' : (stepping 55 (verifyThreads verifyToyOps verifyToyParams A.1 verifyToyClients 9 0) A.2.mem
      fun p m => stepping 68 (verifyThreads verifyToyOps verifyToyParams A.1 verifyToyClients 9 1) m
        fun q m => stepping 13 p m fun p _ => (p.result, q.result)) = (some 0, some 1) := by
    decide +kernel
  refine ⟨(Prod.mk.inj (h.trans h')).1, (Prod.mk.inj (h.trans h')).2, by decide, by decide, by decide,
    fun t => ?_⟩
  cases t <;> simp [verifyToyClients, VerifyClient.Below, CallArg.Below, verifyToyHeap]

end Ringo
