import Verif.Model.JVerMem
import Verif.Proof.JCopyFresh

set_option linter.unnecessarySeqFocus false

/-! Proofs about the memory of verifiers. -/

namespace Ringo
namespace MemProg
variable {V α β ι : Type}

/-- The same program at other addresses. -/
def rename (σ : Nat → Nat) : MemProg V α → MemProg V α
  | ret a => ret a
  | rd a k => rd (σ a) fun v => rename σ (k v)
  | wr a v k => wr (σ a) v (rename σ k)

variable {σ : Nat → Nat}

theorem rename_bind (p : MemProg V α) (f : α → MemProg V β) :
    rename σ (p >>= f) = rename σ p >>= fun a => rename σ (f a) := by
  change rename σ (p.bind f) = (rename σ p).bind fun a => rename σ (f a)
  induction p with
  | ret a => rfl
  | rd a k ih => exact congrArg (rd (σ a)) (funext ih)
  | wr a v k ih => exact congrArg (wr (σ a) v) ih

theorem rename_pure (a : α) : rename σ (pure a : MemProg V α) = pure a := rfl
theorem rename_get (a : Nat) : rename σ (get a : MemProg V V) = get (σ a) := rfl
theorem rename_put (a : Nat) (v : V) : rename σ (put a v : MemProg V Unit) = put (σ a) v := rfl

theorem rename_each (l : List ι) (f : ι → MemProg V β) :
    rename σ (each l f) = each l fun i => rename σ (f i) := by
  induction l with
  | nil => rfl
  | cons i l ih =>
    change rename σ ((f i) >>= fun b => (each l f) >>= fun bs => pure (b :: bs)) =
      (rename σ (f i)) >>= fun b => (each l fun i => rename σ (f i)) >>= fun bs => pure (b :: bs)
    simp only [rename_bind, rename_pure, ih]

theorem rename_ite {c : Prop} [Decidable c] (p q : MemProg V α) :
    rename σ (if c then p else q) = if c then rename σ p else rename σ q := by
  by_cases h : c
  · simp only [if_pos h]
  · simp only [if_neg h]

theorem run_rename (hσ : ∀ a b, σ a = σ b → a = b) (p : MemProg V α) : ∀ m : Nat → V,
    ((rename σ p).run m).1 = (p.run fun a => m (σ a)).1 := by
  induction p with
  | ret a => intro m; rfl
  | rd a k ih => intro m; exact ih (m (σ a)) m
  | wr a v k ih =>
    intro m
    refine (ih (Function.update m (σ a) v)).trans ?_
    have : (fun b => Function.update m (σ a) v (σ b)) = Function.update (fun b => m (σ b)) a v := by
      funext b
      by_cases h : b = a
      · subst h; simp
      · have h' : σ b ≠ σ a := fun e => h (hσ _ _ e)
        simp [Function.update, h, h']
    rw [this]
    rfl

end MemProg

section
variable {V : Type} (O : CopyOps V)
open MemProg

/-! ### What a verifier reads and writes -/

/-- What a verifier writes. -/
def VerifierObj.Own (P : CopyParams) (v : VerifierObj V) (a : Nat) : Prop :=
  (a = v.ecd.rns.coeff ∨ a = v.ecd.rns.mul ∨ a = v.ecd.rns.acc ∨ a = v.ecd.rns.accTmp) ∨
  (a = v.rnsOut.coeff ∨ a = v.rnsOut.mul ∨ a = v.rnsOut.acc ∨ a = v.rnsOut.accTmp) ∨
  (a = v.ecd.buf.coeff ∨ a = v.ecd.buf.baseE ∨ a = v.ecd.buf.coeffE ∨ a = v.extBuf) ∨
  (v.ecd.buf.coeffBig ≤ a ∧ a < v.ecd.buf.coeffBig + P.n)

/-- What a verifier reads and never writes. -/
def VerifierObj.Ro (v : VerifierObj V) (a : Nat) : Prop :=
  a = v.ext ∨ a = v.inCutOff ∨ a = v.outCutOff ∨ a = v.ck ∨
  a = v.ecd.rns.qHalf ∨ a = v.ecd.rns.gad ∨ a = v.rnsOut.qHalf ∨ a = v.rnsOut.gad

/-- A verifier may write `W` and read `R`. -/
structure VerifierObj.Allows (P : CopyParams) (v : VerifierObj V) (R W : Nat → Prop) : Prop where
  own : ∀ a, v.Own P a → R a ∧ W a
  ro : ∀ a, v.Ro a → R a
  ringQ : R P.ringQ
  ringQOut : R P.ringQOut
  q : v.ecd.rns.ringQ = P.ringQ
  qOut : v.rnsOut.ringQ = P.ringQOut
  n : v.ecd.rns.n = P.n

variable {R W : Nat → Prop}

theorem stays_reconstructOne {r : RnsObj} (h1 : R r.acc ∧ W r.acc) (h2 : R r.coeff ∧ W r.coeff)
    (h3 : R r.mul ∧ W r.mul) (h4 : W r.accTmp) (h5 : R r.ringQ) (h6 : R r.gad) (h7 : R r.qHalf)
    (p : V) (i : Nat) : Stays R W (reconstructOne O r p i) :=
  stays_bind (stays_get h5) fun _ => stays_ite (fun _ => stays_pure _) fun _ =>
    stays_bind (stays_put h1.2) fun _ =>
    stays_bind (stays_range fun _ _ => stays_bind (stays_put h2.2) fun _ =>
      stays_bind (stays_get h2.1) fun _ => stays_bind (stays_get h6) fun _ =>
      stays_bind (stays_put h3.2) fun _ => stays_bind (stays_get h1.1) fun _ =>
      stays_bind (stays_get h3.1) fun _ => stays_put h1.2) fun _ =>
    stays_bind (stays_get h1.1) fun _ => stays_bind (stays_put h4) fun _ =>
    stays_bind (stays_put h1.2) fun _ => stays_bind (stays_get h1.1) fun _ =>
    stays_bind (stays_get h7) fun _ =>
    stays_bind (stays_ite (fun _ => stays_put h1.2) fun _ => stays_pure _) fun _ => stays_get h1.1

theorem slot_lt {s e n i j : Nat} (h : s * e ≤ n) (hi : i < s) (hj : j < e) : j * s + i < n := by
  have : (j + 1) * s ≤ e * s := Nat.mul_le_mul_right s hj
  rw [Nat.add_mul, Nat.mul_comm e s] at this
  omega

theorem stays_decodeSlot {P : CopyParams} {v : VerifierObj V} (h : v.Allows P R W)
    (hs : P.slots * P.exp ≤ P.n) {i : Nat} (hi : i < P.slots) (js : List Nat) :
    (∀ j ∈ js, j < P.exp) → ∀ x : V, Stays R W (decodeSlotProg O P v.ecd i js x) := by
  induction js with
  | nil => intro _ x; exact stays_pure _
  | cons j js ih =>
    intro hj x
    have hlt := slot_lt hs hi (hj j (by simp))
    refine stays_bind (stays_get (h.own _ (by simp [VerifierObj.Own])).1) fun _ =>
      stays_bind (stays_get (h.own _ ?_).1) fun _ =>
      stays_bind (stays_put (h.own _ (by simp [VerifierObj.Own])).2) fun _ =>
      stays_bind (stays_get (h.own _ (by simp [VerifierObj.Own])).1) fun _ =>
      ih (fun j' hj' => hj j' (by simp [hj'])) _
    simp only [VerifierObj.Own]
    omega

theorem stays_decode {P : CopyParams} {v : VerifierObj V} (h : v.Allows P R W)
    (hs : P.slots * P.exp ≤ P.n) (p : V) : Stays R W (decodeProg O P v.ecd p) := by
  refine stays_bind (stays_range fun i hi => stays_bind (stays_reconstructOne O
    (h.own _ (by simp [VerifierObj.Own])) (h.own _ (by simp [VerifierObj.Own]))
    (h.own _ (by simp [VerifierObj.Own])) (h.own _ (by simp [VerifierObj.Own])).2
    (h.q ▸ h.ringQ) (h.ro _ (by simp [VerifierObj.Ro])) (h.ro _ (by simp [VerifierObj.Ro])) _ _)
    fun _ => stays_put (h.own _ ?_).2) fun _ =>
    stays_bind (stays_put (h.own _ (by simp [VerifierObj.Own])).2) fun _ =>
    stays_range fun i hi => stays_decodeSlot O h hs hi _ (by simp) _
  rw [h.n] at hi
  simp only [VerifierObj.Own]
  omega

theorem stays_verifyNorm {P : CopyParams} {v : VerifierObj V} (h : v.Allows P R W) (t : PTest)
    (ps : List V) : Stays R W (verifyNormProg O t v.rnsOut ps) ∧
      Stays R W (verifyNormProg O t v.ecd.rns ps) :=
  ⟨stays_bind (stays_each fun _ _ => stays_reconstruct O
    (h.own _ (by simp [VerifierObj.Own])) (h.own _ (by simp [VerifierObj.Own]))
    (h.own _ (by simp [VerifierObj.Own])) (h.own _ (by simp [VerifierObj.Own])).2
    (h.qOut ▸ h.ringQOut) (h.ro _ (by simp [VerifierObj.Ro])) (h.ro _ (by simp [VerifierObj.Ro])) _)
    fun _ => stays_pure _,
  stays_bind (stays_each fun _ _ => stays_reconstruct O
    (h.own _ (by simp [VerifierObj.Own])) (h.own _ (by simp [VerifierObj.Own]))
    (h.own _ (by simp [VerifierObj.Own])) (h.own _ (by simp [VerifierObj.Own])).2
    (h.q ▸ h.ringQ) (h.ro _ (by simp [VerifierObj.Ro])) (h.ro _ (by simp [VerifierObj.Ro])) _)
    fun _ => stays_pure _⟩

theorem stays_verify {P : CopyParams} {v : VerifierObj V} (h : v.Allows P R W)
    (hs : P.slots * P.exp ≤ P.n) {n : Nat} (hn : ∀ a < n, R a) (x : V) {com ys : List (CallArg V)}
    {pf : CallArg V} (hc : ∀ y ∈ com, y.Below n) (hy : ∀ y ∈ ys, y.Below n) (hp : pf.Below n) :
    Stays R W (verifyProg O P v x com ys pf) := by
  have ro : ∀ a, v.Ro a → R a := h.ro
  refine stays_bind (stays_get (ro _ (by simp [VerifierObj.Ro]))) fun _ =>
    stays_bind (stays_each fun y hm => stays_arg hn (hc y hm)) fun _ =>
    stays_bind (stays_get h.ringQ) fun _ => stays_bind (stays_get h.ringQOut) fun _ =>
    stays_bind (stays_arg hn hp) fun _ => stays_bind ?_ fun _ => stays_ite (fun _ =>
    stays_bind ?_ fun _ => stays_ite (fun _ => stays_bind ?_ fun _ => stays_ite (fun _ =>
    stays_bind (stays_each fun y hm => stays_arg hn (hy y hm)) fun _ => ?_) fun _ => stays_pure _)
    fun _ => stays_pure _) fun _ => stays_pure _
  · exact stays_bind (stays_range fun _ _ => stays_bind (stays_get h.ringQOut) fun _ =>
      stays_bind (stays_get (ro _ (by simp [VerifierObj.Ro]))) fun _ =>
      stays_bind (stays_get (ro _ (by simp [VerifierObj.Ro]))) fun _ => stays_pure _) fun _ =>
      (stays_verifyNorm O h _ _).1
  · exact stays_bind (stays_range fun _ _ => stays_bind (stays_range fun _ _ =>
      stays_bind (stays_get h.ringQOut) fun _ =>
      stays_bind (stays_put (h.own _ (by simp [VerifierObj.Own])).2) fun _ =>
      stays_bind (stays_get (ro _ (by simp [VerifierObj.Ro]))) fun _ =>
      stays_bind (stays_get (h.own _ (by simp [VerifierObj.Own])).1) fun _ =>
      stays_bind (stays_get h.ringQ) fun _ => stays_pure _) fun _ =>
      stays_bind (stays_get h.ringQ) fun _ =>
      stays_bind (stays_get (ro _ (by simp [VerifierObj.Ro]))) fun _ =>
      stays_bind (stays_get (ro _ (by simp [VerifierObj.Ro]))) fun _ => stays_pure _) fun _ =>
      (stays_verifyNorm O h _ _).2
  · exact stays_bind (stays_range fun _ _ => stays_encode O (h.own _ (by simp [VerifierObj.Own])).1
      (h.own _ (by simp [VerifierObj.Own])).2 h.ringQ _) fun _ =>
      stays_bind (stays_get h.ringQ) fun _ => stays_pure _
  · exact stays_bind (stays_ite (fun _ => stays_each fun _ _ => stays_bind (stays_get h.ringQ) fun _ =>
      stays_decode O h hs _) fun _ => stays_pure _) fun _ =>
      stays_bind (stays_each fun _ _ => stays_decode O h hs _) fun _ => stays_pure _

/-- The goroutine only passes values and objects with addresses below `n`. -/
def VerifyClient.Below (n : Nat) : VerifyClient V → Prop
  | .done _ => True
  | .verify _ com ys pf k => (∀ y ∈ com, y.Below n) ∧ (∀ y ∈ ys, y.Below n) ∧ pf.Below n ∧
      ∀ b, (k b).Below n

theorem stays_verifyClient {P : CopyParams} {v : VerifierObj V} (h : v.Allows P R W)
    (hs : P.slots * P.exp ≤ P.n) {n : Nat} (hn : ∀ a < n, R a) (c : VerifyClient V) (hc : c.Below n) :
    Stays R W (c.prog O P v) := by
  induction c with
  | done r => exact stays_ret _
  | verify x com ys pf k ih =>
    exact stays_bind' (stays_verify O h hs hn x hc.1 hc.2.1 hc.2.2.1) fun b => ih b (hc.2.2.2 b)

/-! ### Buffers are written before they are read -/

variable {B D : Nat → Prop}

/-- What is not a buffer of the verifier. -/
structure VerifierObj.Keeps (P : CopyParams) (v : VerifierObj V) (B : Nat → Prop) : Prop where
  ro : ∀ a, v.Ro a → ¬ B a
  ringQ : ¬ B P.ringQ
  ringQOut : ¬ B P.ringQOut
  q : v.ecd.rns.ringQ = P.ringQ
  qOut : v.rnsOut.ringQ = P.ringQOut
  n : v.ecd.rns.n = P.n

theorem fresh_reconstructOne {r : RnsObj} (h5 : ¬ B r.ringQ) (h6 : ¬ B r.gad) (h7 : ¬ B r.qHalf)
    (p : V) (i : Nat) : Fresh B (fun _ _ => True) D (reconstructOne O r p i) := by
  refine fresh_seq (fresh_get fun h => (h5 h).elim) fun D₂ q _ _ => fresh_ite (fresh_pure trivial) ?_
  refine fresh_seq fresh_put fun D₃ _ _ h3 => ?_
  refine fresh_seq (fresh_each' _ fun j _ D₄ h4 => ?_) fun D₄ _ h4 _ => ?_
  · refine fresh_seq fresh_put fun D₅ _ h5' hc => ?_
    refine fresh_seq (fresh_get fun _ => hc) fun D₆ _ h6' _ => ?_
    refine fresh_seq (fresh_get fun h => (h6 h).elim) fun D₇ _ h7' _ => ?_
    refine fresh_seq fresh_put fun D₈ _ h8 hm => ?_
    refine fresh_seq (fresh_get fun _ => h8 _ (h7' _ (h6' _ (h5' _ (h4 _ h3))))) fun D₉ _ h9 _ => ?_
    exact fresh_seq (fresh_get fun _ => h9 _ hm) fun _ _ _ _ =>
      Fresh.imp fresh_put fun _ _ _ _ => trivial
  refine fresh_seq (fresh_get fun _ => h4 _ h3) fun D₅ _ h5' _ => ?_
  refine fresh_seq fresh_put fun D₆ _ _ _ => ?_
  refine fresh_seq fresh_put fun D₇ _ _ ha => ?_
  refine fresh_seq (fresh_get fun _ => ha) fun D₈ _ h8 _ => ?_
  refine fresh_seq (fresh_get fun h => (h7 h).elim) fun D₉ _ h9 _ => ?_
  refine fresh_seq (Q₁ := fun _ _ => True) (fresh_ite (Fresh.imp fresh_put fun _ _ _ _ => trivial)
    (fresh_pure trivial)) fun D₁₀ _ h10 _ => ?_
  exact fresh_get fun _ => h10 _ (h9 _ (h8 _ ha))

theorem fresh_decodeSlot {P : CopyParams} {e : EncObj V} {i : Nat} (js : List Nat) :
    ∀ {D : Nat → Prop}, D e.buf.baseE → (∀ j ∈ js, D (e.buf.coeffBig + (j * P.slots + i))) →
      ∀ x : V, Fresh B (fun _ _ => True) D (decodeSlotProg O P e i js x) := by
  induction js with
  | nil => intro D _ _ x; exact fresh_pure trivial
  | cons j js ih =>
    intro D h1 h2 x
    refine fresh_seq (fresh_get fun _ => h1) fun D₁ _ i1 _ => ?_
    refine fresh_seq (fresh_get fun _ => i1 _ (h2 j (by simp))) fun D₂ _ i2 _ => ?_
    refine fresh_seq fresh_put fun D₃ _ i3 h3 => ?_
    refine fresh_seq (fresh_get fun _ => h3) fun D₄ _ i4 _ => ?_
    have up : ∀ a, D a → D₄ a := fun a ha => i4 a (i3 a (i2 a (i1 a ha)))
    exact ih (up _ h1) (fun j' hj' => up _ (h2 j' (by simp [hj']))) _

theorem fresh_decode {P : CopyParams} {v : VerifierObj V} (h : v.Keeps P B)
    (hs : P.slots * P.exp ≤ P.n) (p : V) : Fresh B (fun _ _ => True) D (decodeProg O P v.ecd p) := by
  refine fresh_seq (fresh_each (W := fun i x => x = v.ecd.buf.coeffBig + i) _ fun i _ D₁ _ =>
    fresh_seq (fresh_reconstructOne O (h.q ▸ h.ringQ) (h.ro _ (by simp [VerifierObj.Ro]))
      (h.ro _ (by simp [VerifierObj.Ro])) _ _) fun _ _ _ _ =>
      Fresh.imp fresh_put fun _ _ _ h3 x hx => hx ▸ h3) fun D₁ _ _ h1 => ?_
  refine fresh_seq fresh_put fun D₂ _ h2 hb => ?_
  refine fresh_each' _ fun i hi D₃ h3 => fresh_decodeSlot O _ (h3 _ hb) (fun j hj => ?_) _
  refine h3 _ (h2 _ (h1 _ (List.mem_range.2 ?_) _ rfl))
  rw [h.n]
  exact slot_lt hs (List.mem_range.1 hi) (by simpa using hj)

theorem fresh_verifyNorm {P : CopyParams} {v : VerifierObj V} (h : v.Keeps P B) (t : PTest)
    (ps : List V) : Fresh B (fun _ _ => True) D (verifyNormProg O t v.rnsOut ps) ∧
      Fresh B (fun _ _ => True) D (verifyNormProg O t v.ecd.rns ps) :=
  ⟨fresh_seq (fresh_each' _ fun _ _ _ _ => fresh_reconstruct O (h.qOut ▸ h.ringQOut)
    (h.ro _ (by simp [VerifierObj.Ro])) (h.ro _ (by simp [VerifierObj.Ro])) _)
    fun _ _ _ _ => fresh_pure trivial,
  fresh_seq (fresh_each' _ fun _ _ _ _ => fresh_reconstruct O (h.q ▸ h.ringQ)
    (h.ro _ (by simp [VerifierObj.Ro])) (h.ro _ (by simp [VerifierObj.Ro])) _)
    fun _ _ _ _ => fresh_pure trivial⟩

theorem fresh_verify {P : CopyParams} {v : VerifierObj V} (h : v.Keeps P B)
    (hs : P.slots * P.exp ≤ P.n) {n : Nat} (hn : ∀ a < n, ¬ B a) (x : V) {com ys : List (CallArg V)}
    {pf : CallArg V} (hc : ∀ y ∈ com, y.Below n) (hy : ∀ y ∈ ys, y.Below n) (hp : pf.Below n) :
    Fresh B (fun _ _ => True) D (verifyProg O P v x com ys pf) := by
  have ro : ∀ a, v.Ro a → ∀ {D : Nat → Prop}, B a → D a := fun a ha _ hb => (h.ro a ha hb).elim
  have rq : ∀ {D : Nat → Prop}, B P.ringQ → D P.ringQ := fun hb => (h.ringQ hb).elim
  have rqo : ∀ {D : Nat → Prop}, B P.ringQOut → D P.ringQOut := fun hb => (h.ringQOut hb).elim
  refine fresh_seq (fresh_get (ro _ (by simp [VerifierObj.Ro]))) fun _ _ _ _ =>
    fresh_seq (fresh_each' _ fun y hm _ _ => fresh_arg hn (hc y hm)) fun _ _ _ _ =>
    fresh_seq (fresh_get rq) fun _ _ _ _ => fresh_seq (fresh_get rqo) fun _ _ _ _ =>
    fresh_seq (fresh_arg hn hp) fun _ _ _ _ =>
    fresh_seq (Q₁ := fun _ _ => True) ?_ fun _ _ _ _ => fresh_ite
    (fresh_seq (Q₁ := fun _ _ => True) ?_ fun _ _ _ _ => fresh_ite
    (fresh_seq (Q₁ := fun _ _ => True) ?_ fun _ _ _ _ => fresh_ite
    (fresh_seq (fresh_each' _ fun y hm _ _ => fresh_arg hn (hy y hm)) fun _ _ _ _ => ?_)
    (fresh_pure trivial)) (fresh_pure trivial)) (fresh_pure trivial)
  · exact fresh_seq (fresh_each' _ fun _ _ _ _ => fresh_seq (fresh_get rqo) fun _ _ _ _ =>
      fresh_seq (fresh_get (ro _ (by simp [VerifierObj.Ro]))) fun _ _ _ _ =>
      fresh_seq (fresh_get (ro _ (by simp [VerifierObj.Ro]))) fun _ _ _ _ => fresh_pure trivial)
      fun _ _ _ _ => (fresh_verifyNorm O h _ _).1
  · exact fresh_seq (fresh_each' _ fun _ _ _ _ => fresh_seq (fresh_each' _ fun _ _ _ _ =>
      fresh_seq (fresh_get rqo) fun _ _ _ _ =>
      fresh_seq fresh_put fun _ _ i1 h1 =>
      fresh_seq (fresh_get (ro _ (by simp [VerifierObj.Ro]))) fun _ _ i2 _ =>
      fresh_seq (fresh_get fun _ => i2 _ h1) fun _ _ _ _ =>
      fresh_seq (fresh_get rq) fun _ _ _ _ => fresh_pure trivial) fun _ _ _ _ =>
      fresh_seq (fresh_get rq) fun _ _ _ _ =>
      fresh_seq (fresh_get (ro _ (by simp [VerifierObj.Ro]))) fun _ _ _ _ =>
      fresh_seq (fresh_get (ro _ (by simp [VerifierObj.Ro]))) fun _ _ _ _ => fresh_pure trivial)
      fun _ _ _ _ => (fresh_verifyNorm O h _ _).2
  · exact fresh_seq (fresh_each' _ fun _ _ _ _ => fresh_encode O h.ringQ _) fun _ _ _ _ =>
      fresh_seq (fresh_get rq) fun _ _ _ _ => fresh_pure trivial
  · exact fresh_seq (Q₁ := fun _ _ => True) (fresh_ite (fresh_each' _ fun _ _ _ _ =>
      fresh_seq (fresh_get rq) fun _ _ _ _ => fresh_decode O h hs _) (fresh_pure trivial))
      fun _ _ _ _ => fresh_seq (fresh_each' _ fun _ _ _ _ => fresh_decode O h hs _)
      fun _ _ _ _ => fresh_pure trivial

/-! ### Two verifiers -/

/-- The same objects at other addresses. -/
def RnsObj.at (σ : Nat → Nat) (r : RnsObj) : RnsObj :=
  ⟨r.n, r.levels, σ r.ringQ, σ r.qHalf, σ r.qBig, σ r.gad, σ r.coeff, σ r.mul, σ r.acc, σ r.accTmp⟩

def EncBufObj.at (σ : Nat → Nat) (b : EncBufObj) : EncBufObj :=
  ⟨σ b.coeff, σ b.fpSample, σ b.pSample, σ b.pSampleShift, σ b.coeffBig, σ b.baseE, σ b.coeffE⟩

def EncObj.at (σ : Nat → Nat) (e : EncObj V) : EncObj V :=
  ⟨⟨σ e.twin.base, e.twin.stdDev, σ e.twin.tables⟩, ⟨σ e.cosac.base, σ e.cosac.rounded⟩, σ e.rounded,
    e.rns.at σ, σ e.deltaInv, e.buf.at σ⟩

def VerifierObj.at (σ : Nat → Nat) (v : VerifierObj V) : VerifierObj V :=
  ⟨v.ecd.at σ, v.rnsOut.at σ, σ v.ext, σ v.extBuf, σ v.inCutOff, σ v.outCutOff, σ v.ck⟩

variable {σ : Nat → Nat}

theorem rename_reconstructOne (r : RnsObj) (p : V) (i : Nat) :
    rename σ (reconstructOne O r p i) = reconstructOne O (r.at σ) p i := by
  simp only [reconstructOne, rename_bind, rename_get, rename_put, rename_each, rename_ite, rename_pure,
    RnsObj.at]

theorem rename_reconstruct (r : RnsObj) (p : V) :
    rename σ (reconstructProg O r p) = reconstructProg O (r.at σ) p := by
  simp only [reconstructProg, rename_each, rename_reconstructOne]
  rfl

theorem rename_encode {P : CopyParams} (hq : σ P.ringQ = P.ringQ) (e : EncObj V) (l : List V) :
    rename σ (encodeProg O P e l) = encodeProg O P (e.at σ) l := by
  simp only [encodeProg, baseEncodeProg, rename_bind, rename_get, rename_put, rename_each, rename_pure,
    hq, EncObj.at, EncBufObj.at]

theorem rename_decodeSlot {P : CopyParams} (e : EncObj V)
    (hb : ∀ i, σ (e.buf.coeffBig + i) = σ e.buf.coeffBig + i) (i : Nat) (js : List Nat) : ∀ x : V,
    rename σ (decodeSlotProg O P e i js x) = decodeSlotProg O P (e.at σ) i js x := by
  induction js with
  | nil => intro x; rfl
  | cons j js ih =>
    intro x
    simp only [decodeSlotProg, rename_bind, rename_get, rename_put, ih, hb]
    rfl

theorem rename_decode {P : CopyParams} (e : EncObj V)
    (hb : ∀ i, σ (e.buf.coeffBig + i) = σ e.buf.coeffBig + i) (p : V) :
    rename σ (decodeProg O P e p) = decodeProg O P (e.at σ) p := by
  simp only [decodeProg, reconstructBufProg, rename_bind, rename_put, rename_each,
    rename_reconstructOne, rename_decodeSlot O e hb, hb]
  rfl

theorem rename_arg {n : Nat} (hn : ∀ a < n, σ a = a) {x : CallArg V} (hx : x.Below n) :
    rename σ x.prog = x.prog := by
  cases x with
  | addr a => exact congrArg (fun a => get a) (hn a hx)
  | val v => rfl

theorem rename_args {n : Nat} (hn : ∀ a < n, σ a = a) (l : List (CallArg V)) :
    (∀ y ∈ l, y.Below n) → rename σ (each l CallArg.prog) = each l CallArg.prog := by
  induction l with
  | nil => intro _; rfl
  | cons x l ih =>
    intro h
    change rename σ (x.prog >>= fun b => each l CallArg.prog >>= fun bs => pure (b :: bs)) =
      (x.prog >>= fun b => each l CallArg.prog >>= fun bs => pure (b :: bs))
    simp only [rename_bind, rename_pure, ih fun y hy => h y (by simp [hy]),
      rename_arg hn (h x (by simp))]

theorem rename_verifyNorm (t : PTest) (r : RnsObj) (ps : List V) :
    rename σ (verifyNormProg O t r ps) = verifyNormProg O t (r.at σ) ps := by
  simp only [verifyNormProg, rename_bind, rename_each, rename_reconstruct, rename_pure]

theorem rename_verify {P : CopyParams} (v : VerifierObj V) {n : Nat} (hn : ∀ a < n, σ a = a)
    (hq : P.ringQ < n) (hq' : P.ringQOut < n)
    (hb : ∀ i, σ (v.ecd.buf.coeffBig + i) = σ v.ecd.buf.coeffBig + i) (x : V)
    {com ys : List (CallArg V)} {pf : CallArg V} (hc : ∀ y ∈ com, y.Below n)
    (hy : ∀ y ∈ ys, y.Below n) (hp : pf.Below n) :
    rename σ (verifyProg O P v x com ys pf) = verifyProg O P (v.at σ) x com ys pf := by
  have e1 := hn _ hq
  have e2 := hn _ hq'
  simp only [verifyProg, verifyOuterProg, verifyInnerProg, verifyConsistencyProg, verifyEvalProg,
    rename_bind, rename_get, rename_ite, rename_pure, rename_args hn com hc,
    rename_args hn ys hy, rename_arg hn hp, rename_verifyNorm, e1, e2]
  simp only [rename_each, rename_bind, rename_get, rename_put, rename_pure, rename_encode O e1, e1, e2,
    rename_decode O v.ecd hb, VerifierObj.at]
  rfl

/-! ### Where the constructor puts the objects -/

/-- How many cells a verifier has. -/
def verifierSize (P : CopyParams) : Nat := 28 + 4 * P.n

/-- The verifier at `b`. -/
def verifierAt (P : CopyParams) (b : Nat) : VerifierObj V :=
  let c := b + 18 + 4 * P.n
  ⟨⟨⟨b + 4, O.fn (.std 3) [], b + 3⟩, ⟨b + 5, b + 6⟩, b + 7,
    ⟨P.n, P.levels, P.ringQ, b + 10, b + 9, b + 8, b + 11, b + 12, b + 13, b + 14⟩, b + 2,
    ⟨b + 15 + P.n, b + 16 + P.n, b + 16 + 2 * P.n, b + 16 + 3 * P.n, b + 15, b + 16 + 4 * P.n,
      b + 17 + 4 * P.n⟩⟩,
    ⟨P.nOut, P.levelsOut, P.ringQOut, c + 2, c + 1, c, c + 3, c + 4, c + 5, c + 6⟩,
    c + 7, c + 8, b, b + 1, c + 9⟩

/-- The tables of a verifier. -/
def VerifierObj.Tables (v : VerifierObj V) (m : Nat → V) : Prop :=
  m v.inCutOff = O.fn .cutOffIn [] ∧ m v.outCutOff = O.fn .cutOffOut [] ∧
  m v.ext = O.fn .extTables [] ∧ m v.ck = O.fn .commitKey [] ∧
  m v.ecd.rns.gad = O.fn .gad [] ∧ m v.ecd.rns.qHalf = O.fn .qHalf [] ∧
  m v.rnsOut.gad = O.fn .gad [] ∧ m v.rnsOut.qHalf = O.fn .qHalf []

theorem newVerifierObj_addrs (P : CopyParams) (h : CopyHeap V) :
    (newVerifierObj O P h).1 = verifierAt O P h.next ∧
      (newVerifierObj O P h).2.next = h.next + verifierSize P := by
  simp only [newVerifierObj, newEnc, newTwin, newCosac, newRns, newEncBuf, Bind.bind, StateT.bind, Pure.pure,
    StateT.pure, allocs_def, newUniform_def, verifierAt, verifierSize, VerifierObj.mk.injEq,
    EncObj.mk.injEq, RnsObj.mk.injEq, EncBufObj.mk.injEq]
  and_intros <;> first | trivial | omega

theorem newVerifierObj_mem (P : CopyParams) (h : CopyHeap V) :
    (∀ a < h.next, (newVerifierObj O P h).2.mem a = h.mem a) ∧
      (verifierAt O P h.next).Tables O (newVerifierObj O P h).2.mem := by
  simp only [newVerifierObj, newEnc, newTwin, newCosac, newRns, newEncBuf, Bind.bind, StateT.bind, Pure.pure,
    StateT.pure, allocs_def, newUniform_def, VerifierObj.Tables, verifierAt]
  refine ⟨fun a hlt => ?_, ?_⟩
  · repeat rw [if_neg (by omega)]
  · and_intros <;> (repeat first | rw [if_neg (by omega)] | rw [if_pos (by omega)])

/-- All verifiers. -/
theorem newVerifiers_ok (P : CopyParams) (k : Nat) : ∀ h : CopyHeap V,
    (newVerifiers O P k h).1 = (List.range k).map (fun t => verifierAt O P (h.next + t * verifierSize P)) ∧
      (∀ a < h.next, (newVerifiers O P k h).2.mem a = h.mem a) ∧
      ∀ t < k, (verifierAt O P (h.next + t * verifierSize P)).Tables O (newVerifiers O P k h).2.mem := by
  induction k with
  | zero => intro h; exact ⟨rfl, fun _ _ => rfl, fun t ht => by omega⟩
  | succ k ih =>
    intro h
    obtain ⟨a1, a2⟩ := newVerifierObj_addrs O P h
    obtain ⟨m1, m2⟩ := newVerifierObj_mem O P h
    obtain ⟨i1, i2, i3⟩ := ih (newVerifierObj O P h).2
    have hstep : newVerifiers O P (k + 1) h =
        ((newVerifierObj O P h).1 :: (newVerifiers O P k (newVerifierObj O P h).2).1,
          (newVerifiers O P k (newVerifierObj O P h).2).2) := rfl
    have hlow : ∀ a < h.next + verifierSize P,
        (newVerifiers O P (k + 1) h).2.mem a = (newVerifierObj O P h).2.mem a := by
      intro a ha
      rw [hstep]
      exact i2 a (by omega)
    refine ⟨?_, ?_, ?_⟩
    · rw [hstep, i1, a1, a2, List.range_succ_eq_map, List.map_cons, List.map_map]
      simp only [Nat.zero_mul, Nat.add_zero, List.cons.injEq, true_and]
      refine List.map_congr_left fun t _ => ?_
      simp only [Function.comp, Nat.succ_mul]
      congr 1
      omega
    · intro a ha
      rw [hlow a (by omega), m1 a ha]
    · intro t ht
      cases t with
      | zero =>
        simp only [Nat.zero_mul, Nat.add_zero]
        obtain ⟨t1, t2, t3, t4, t5, t6, t7, t8⟩ := m2
        refine ⟨(hlow _ ?_).trans t1, (hlow _ ?_).trans t2, (hlow _ ?_).trans t3, (hlow _ ?_).trans t4,
          (hlow _ ?_).trans t5, (hlow _ ?_).trans t6, (hlow _ ?_).trans t7, (hlow _ ?_).trans t8⟩ <;>
          simp only [verifierAt, verifierSize] <;> omega
      | succ t =>
        have := i3 t (by omega)
        rw [a2] at this
        have e : h.next + (t + 1) * verifierSize P = h.next + verifierSize P + t * verifierSize P := by
          rw [Nat.succ_mul]; omega
        rw [e, hstep]
        exact this

theorem verifierAt_bounds (P : CopyParams) (b a : Nat)
    (h : (verifierAt O P b).Own P a ∨ (verifierAt O P b).Ro a) : b ≤ a ∧ a < b + verifierSize P := by
  simp only [VerifierObj.Own, VerifierObj.Ro, verifierAt, verifierSize] at *
  omega

theorem verifierAt_ro (P : CopyParams) (b a : Nat) (h : (verifierAt O P b).Own P a) :
    ¬ (verifierAt O P b).Ro a := by
  simp only [VerifierObj.Own, VerifierObj.Ro, verifierAt] at *
  omega

end
end Ringo
