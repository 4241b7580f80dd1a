import Verif.Model.JCopy
import Mathlib.Data.List.Nodup
import Mathlib.Tactic.Basic
import Mathlib.Tactic.SplitIfs

/-! Proofs about programs of reads and writes, and about the memory of provers. -/

namespace Ringo
namespace MemProg
variable {V α β ι : Type}

/-- Every access is allowed, whatever is read. -/
def Stays (R W : Nat → Prop) : MemProg V α → Prop
  | ret _ => True
  | rd a k => R a ∧ ∀ v, Stays R W (k v)
  | wr a _ k => W a ∧ Stays R W k

theorem stays_ret {R W : Nat → Prop} (a : α) : Stays R W (ret a : MemProg V α) := trivial
theorem stays_pure {R W : Nat → Prop} (a : α) : Stays R W (pure a : MemProg V α) := trivial

theorem stays_bind' {R W : Nat → Prop} {p : MemProg V α} {f : α → MemProg V β}
    (hp : Stays R W p) (hf : ∀ a, Stays R W (f a)) : Stays R W (p.bind f) := by
  induction p with
  | ret a => exact hf a
  | rd a k ih => exact ⟨hp.1, fun v => ih v (hp.2 v)⟩
  | wr a v k ih => exact ⟨hp.1, ih hp.2⟩

theorem stays_bind {R W : Nat → Prop} {p : MemProg V α} {f : α → MemProg V β}
    (hp : Stays R W p) (hf : ∀ a, Stays R W (f a)) : Stays R W (p >>= f) := stays_bind' hp hf

theorem stays_get {R W : Nat → Prop} {a : Nat} (h : R a) : Stays R W (get a : MemProg V V) :=
  ⟨h, fun _ => trivial⟩

theorem stays_put {R W : Nat → Prop} {a : Nat} {v : V} (h : W a) :
    Stays R W (put a v : MemProg V Unit) := ⟨h, trivial⟩

theorem stays_each {R W : Nat → Prop} {l : List ι} {f : ι → MemProg V β}
    (h : ∀ i ∈ l, Stays R W (f i)) : Stays R W (each l f) := by
  induction l with
  | nil => trivial
  | cons i l ih =>
    exact stays_bind' (h i (by simp)) fun b =>
      stays_bind' (ih fun j hj => h j (by simp [hj])) fun bs => trivial

theorem stays_range {R W : Nat → Prop} {n : Nat} {f : Nat → MemProg V β}
    (h : ∀ i < n, Stays R W (f i)) : Stays R W (each (List.range n) f) :=
  stays_each fun i hi => h i (List.mem_range.1 hi)

theorem stays_ite {R W : Nat → Prop} {c : Prop} [Decidable c] {p q : MemProg V α}
    (hp : c → Stays R W p) (hq : ¬ c → Stays R W q) : Stays R W (if c then p else q) := by
  by_cases h : c
  · rw [if_pos h]; exact hp h
  · rw [if_neg h]; exact hq h

theorem Stays.step {R W : Nat → Prop} {p : MemProg V α} (h : Stays R W p) (m : Nat → V) :
    Stays R W (p.step m).1 := by
  cases p with
  | ret a => exact h
  | rd a k => exact h.2 _
  | wr a v k => exact h.2

theorem Stays.step_mem {R W : Nat → Prop} {p : MemProg V α} (h : Stays R W p) (m : Nat → V)
    {a : Nat} (ha : ¬ W a) : (p.step m).2 a = m a := by
  cases p with
  | ret b => rfl
  | rd b k => rfl
  | wr b v k =>
    have : a ≠ b := fun e => ha (e ▸ h.1)
    simp [MemProg.step, Function.update, this]

/-- The next step depends only on what may be read. -/
theorem Stays.step_congr {R W : Nat → Prop} {p : MemProg V α} (h : Stays R W p) {m m' : Nat → V}
    (hm : ∀ a, R a → m a = m' a) :
    (p.step m).1 = (p.step m').1 ∧ ∀ a, R a → (p.step m).2 a = (p.step m').2 a := by
  cases p with
  | ret b => exact ⟨rfl, hm⟩
  | rd b k =>
    refine ⟨?_, hm⟩
    change k (m b) = k (m' b)
    rw [hm b h.1]
  | wr b v k =>
    refine ⟨rfl, fun a ha => ?_⟩
    change Function.update m b v a = Function.update m' b v a
    by_cases e : a = b
    · subst e; simp
    · simp [Function.update, e, hm a ha]

/-- Goroutines that write only what is theirs and read only that and what nobody writes do not notice
each other. -/
theorem interleave_alone {own : Nat → Nat → Prop} {ro : Nat → Prop}
    (hd : ∀ t t' a, t ≠ t' → own t a → ¬ own t' a) (hr : ∀ t a, own t a → ¬ ro a)
    (s : List Nat) : ∀ (ps : Nat → MemProg V α) (m : Nat → V),
      (∀ t, Stays (fun a => own t a ∨ ro a) (own t) (ps t)) →
      ∀ (t : Nat) (m₀ : Nat → V), (∀ a, own t a ∨ ro a → m a = m₀ a) →
        (interleave ps m s).1 t = (alone (ps t) m₀ (s.count t)).1 := by
  induction s with
  | nil => intro ps m _ t m₀ _; rfl
  | cons u s ih =>
    intro ps m hs t m₀ hm
    have hs' : ∀ t', Stays (fun a => own t' a ∨ ro a) (own t')
        (Function.update ps u ((ps u).step m).1 t') := by
      intro t'
      by_cases e : t' = u
      · subst e; simpa using (hs t').step m
      · simpa [Function.update, e] using hs t'
    change (interleave (Function.update ps u ((ps u).step m).1) ((ps u).step m).2 s).1 t = _
    by_cases e : u = t
    · subst e
      obtain ⟨h1, h2⟩ := (hs u).step_congr hm
      rw [ih _ _ hs' u ((ps u).step m₀).2 h2, List.count_cons_self]
      simp only [Function.update_self, alone, h1]
    · have hkeep : ∀ a, own t a ∨ ro a → ((ps u).step m).2 a = m₀ a := by
        intro a ha
        rw [(hs u).step_mem m, hm a ha]
        intro hu
        rcases ha with ha | ha
        · exact hd u t a e hu ha
        · exact hr u a hu ha
      rw [ih _ _ hs' t m₀ hkeep, List.count_cons_of_ne e]
      simp [Function.update, Ne.symm e]

theorem Stays.access {R W : Nat → Prop} {p : MemProg V α} (h : Stays R W p) {a : Nat} {w : Bool}
    (ha : p.access = some (a, w)) : if w then W a else R a := by
  cases p with
  | ret b => simp [MemProg.access] at ha
  | rd b k =>
    simp only [MemProg.access, Option.some.injEq, Prod.mk.injEq] at ha
    obtain ⟨rfl, rfl⟩ := ha
    simpa using h.1
  | wr b v k =>
    simp only [MemProg.access, Option.some.injEq, Prod.mk.injEq] at ha
    obtain ⟨rfl, rfl⟩ := ha
    simpa using h.1

theorem accesses_stay {own : Nat → Nat → Prop} {ro : Nat → Prop} (s : List Nat) :
    ∀ (ps : Nat → MemProg V α) (m : Nat → V),
      (∀ t, Stays (fun a => own t a ∨ ro a) (own t) (ps t)) →
      ∀ x ∈ accesses ps m s, if x.2.2 then own x.1 x.2.1 else own x.1 x.2.1 ∨ ro x.2.1 := by
  induction s with
  | nil => intro ps m _ x hx; simp [accesses] at hx
  | cons u s ih =>
    intro ps m hs x hx
    have hs' : ∀ t', Stays (fun a => own t' a ∨ ro a) (own t')
        (Function.update ps u ((ps u).step m).1 t') := by
      intro t'
      by_cases e : t' = u
      · subst e; simpa using (hs t').step m
      · simpa [Function.update, e] using hs t'
    simp only [accesses, List.mem_append] at hx
    rcases hx with hx | hx
    · cases hacc : (ps u).access with
      | none => simp [hacc] at hx
      | some y =>
        obtain ⟨a, w⟩ := y
        simp only [hacc, Option.map_some, Option.toList_some, List.mem_singleton] at hx
        subst hx
        exact (hs u).access hacc
    · exact ih _ _ hs' x hx

theorem interleave_frame {own : Nat → Nat → Prop} {ro : Nat → Prop} (s : List Nat) {a : Nat}
    (ha : ∀ t, ¬ own t a) : ∀ (ps : Nat → MemProg V α) (m : Nat → V),
      (∀ t, Stays (fun a => own t a ∨ ro a) (own t) (ps t)) → (interleave ps m s).2 a = m a := by
  induction s with
  | nil => intro ps m _; rfl
  | cons u s ih =>
    intro ps m hs
    have hs' : ∀ t', Stays (fun a => own t' a ∨ ro a) (own t')
        (Function.update ps u ((ps u).step m).1 t') := by
      intro t'
      by_cases e : t' = u
      · subst e; simpa using (hs t').step m
      · simpa [Function.update, e] using hs t'
    refine (ih _ _ hs').trans ((hs u).step_mem m (ha u))

/-! ### Running to the end -/

theorem run_bind (p : MemProg V α) (f : α → MemProg V β) (m : Nat → V) :
    (p >>= f).run m = (f (p.run m).1).run (p.run m).2 := by
  change (p.bind f).run m = _
  induction p generalizing m with
  | ret a => rfl
  | rd a k ih => exact ih (m a) m
  | wr a v k ih => exact ih (Function.update m a v)

theorem run_pure (a : α) (m : Nat → V) : (pure a : MemProg V α).run m = (a, m) := rfl
theorem run_get (a : Nat) (m : Nat → V) : (get a : MemProg V V).run m = (m a, m) := rfl
theorem run_put (a : Nat) (v : V) (m : Nat → V) :
    (put a v : MemProg V Unit).run m = ((), Function.update m a v) := rfl

theorem run_each_cons (i : ι) (l : List ι) (f : ι → MemProg V β) (m : Nat → V) :
    (each (i :: l) f).run m =
      (((f i).run m).1 :: ((each l f).run ((f i).run m).2).1,
        ((each l f).run ((f i).run m).2).2) := by
  change ((f i) >>= fun b => (each l f) >>= fun bs => ret (b :: bs)).run m = _
  rw [run_bind, run_bind]
  rfl

theorem run_stays {R W : Nat → Prop} {p : MemProg V α} (h : Stays R W p) (m : Nat → V) {a : Nat}
    (ha : ¬ W a) : (p.run m).2 a = m a := by
  induction p generalizing m with
  | ret b => rfl
  | rd b k ih => exact ih (m b) (h.2 _) m
  | wr b v k ih =>
    have : a ≠ b := fun e => ha (e ▸ h.1)
    change (k.run (Function.update m b v)).2 a = m a
    rw [ih h.2]
    simp [Function.update, this]

end MemProg

section
variable {V : Type} (O : CopyOps V)
open MemProg

/-- What a prover writes. -/
def ProverObj.Own (P : CopyParams) (p : ProverObj V) (a : Nat) : Prop :=
  (a = p.ecd.twin.base ∨ a = p.ecd.cosac.base ∨ a = p.ecd.cosac.rounded ∨ a = p.ecd.rounded ∨
    a = p.uniform ∨ a = p.rounded ∨ a = p.mlwe.base) ∨
  (a = p.ecd.rns.coeff ∨ a = p.ecd.rns.mul ∨ a = p.ecd.rns.acc ∨ a = p.ecd.rns.accTmp) ∨
  (a = p.rnsOut.coeff ∨ a = p.rnsOut.mul ∨ a = p.rnsOut.acc ∨ a = p.rnsOut.accTmp) ∨
  a = p.ecd.buf.coeff ∨
  (p.ecd.buf.fpSample ≤ a ∧ a < p.ecd.buf.fpSample + P.n) ∨
  (p.ecd.buf.pSample ≤ a ∧ a < p.ecd.buf.pSample + P.n) ∨
  (p.ecd.buf.pSampleShift ≤ a ∧ a < p.ecd.buf.pSampleShift + P.n)

/-- What a prover reads and never writes. -/
def ProverObj.Ro (p : ProverObj V) (a : Nat) : Prop :=
  a = p.ecd.twin.tables ∨ a = p.mlwe.tables ∨ a = p.ecd.deltaInv ∨ a = p.ck ∨
  a = p.ecd.rns.qHalf ∨ a = p.ecd.rns.qBig ∨ a = p.ecd.rns.gad ∨
  a = p.rnsOut.qHalf ∨ a = p.rnsOut.qBig ∨ a = p.rnsOut.gad

/-- A prover may write `W` and read `R`. -/
structure ProverObj.Allows (P : CopyParams) (p : ProverObj V) (R W : Nat → Prop) : Prop where
  own : ∀ a, p.Own P a → W a
  ownR : ∀ a, p.Own P a → R a
  ro : ∀ a, p.Ro a → R a
  ringQ : R P.ringQ
  ringQOut : R P.ringQOut
  zig : R P.zig
  q : p.ecd.rns.ringQ = P.ringQ
  qOut : p.rnsOut.ringQ = P.ringQOut

variable {R W : Nat → Prop}

theorem stays_sample {s : Nat} (hr : R s) (hw : W s) : Stays R W (sampleProg O s) :=
  stays_bind (stays_get hr) fun _ => stays_bind (stays_put hw) fun _ => stays_pure _

theorem stays_float {s : Nat} (hr : R s) (hw : W s) : Stays R W (floatProg O s) :=
  stays_bind (stays_sample O hr hw) fun _ => stays_pure _

theorem stays_tail {s : Nat} (hr : R s) (hw : W s) (r : V) (fuel : Nat) :
    Stays R W (tailProg O s r fuel) := by
  induction fuel with
  | zero => exact stays_pure _
  | succ n ih =>
    exact stays_bind (stays_float O hr hw) fun _ => stays_bind (stays_float O hr hw) fun _ =>
      stays_ite (fun _ => stays_pure _) fun _ => ih

theorem stays_norm {zig s : Nat} (hz : R zig) (hr : R s) (hw : W s) (fuel : Nat) :
    Stays R W (normProg O zig s fuel) := by
  induction fuel with
  | zero => exact stays_pure _
  | succ n ih =>
    exact stays_bind (stays_sample O hr hw) fun _ => stays_bind (stays_get hz) fun _ =>
      stays_ite (fun _ => stays_pure _) fun _ => stays_ite (fun _ => stays_tail O hr hw _ _) fun _ =>
        stays_bind (stays_float O hr hw) fun _ => stays_ite (fun _ => stays_pure _) fun _ => ih

theorem stays_rounded {zig s : Nat} (hz : R zig) (hr : R s) (hw : W s) (fuel : Nat) (sd : V) :
    Stays R W (roundedProg O zig s fuel sd) :=
  stays_bind (stays_norm O hz hr hw fuel) fun _ => stays_pure _

theorem stays_twin {s : TwinObj V} (hr : R s.base) (hw : W s.base) (ht : R s.tables) (c : V) :
    Stays R W (twinProg O s c) :=
  stays_bind (stays_sample O hr hw) fun _ => stays_bind (stays_get ht) fun _ => stays_pure _

theorem stays_cosacRound {zig : Nat} {s : CosacObj} (hz : R zig) (hr : R s.base) (hw : W s.base)
    (hr' : R s.rounded) (hw' : W s.rounded) (c sd : V) (inner fuel : Nat) :
    Stays R W (cosacRoundProg O zig s c sd inner fuel) := by
  induction fuel with
  | zero => exact stays_pure _
  | succ n ih =>
    exact stays_bind (stays_norm O hz hr' hw' _) fun _ => stays_bind (stays_sample O hr hw) fun _ =>
      stays_ite (fun _ => stays_bind (stays_float O hr hw) fun _ =>
        stays_ite (fun _ => stays_pure _) fun _ => ih) fun _ => ih

theorem stays_cosac {zig : Nat} {s : CosacObj} (hz : R zig) (hr : R s.base) (hw : W s.base)
    (hr' : R s.rounded) (hw' : W s.rounded) (c sd : V) (fuel : Nat) :
    Stays R W (cosacProg O zig s c sd fuel) :=
  stays_bind (stays_float O hr hw) fun _ => stays_ite (fun _ => stays_pure _) fun _ =>
    stays_bind (stays_cosacRound O hz hr hw hr' hw' _ _ _ _) fun _ => stays_pure _

theorem stays_baseEncode {P : CopyParams} {e : EncObj V} (hr : R e.buf.coeff) (hw : W e.buf.coeff)
    (v : List V) : Stays R W (baseEncodeProg O P e v) :=
  stays_bind (stays_each fun _ _ => stays_bind (stays_put hw) fun _ =>
    stays_bind (stays_range fun _ _ => stays_bind (stays_get hr) fun _ =>
      stays_bind (stays_put hw) fun _ => stays_pure _) fun _ =>
    stays_bind (stays_get hr) fun _ => stays_pure _) fun _ => stays_pure _

theorem stays_encode {P : CopyParams} {e : EncObj V} (hr : R e.buf.coeff) (hw : W e.buf.coeff)
    (hq : R P.ringQ) (v : List V) : Stays R W (encodeProg O P e v) :=
  stays_bind (stays_baseEncode O hr hw v) fun _ => stays_bind (stays_get hq) fun _ => stays_pure _

theorem own_fp {P : CopyParams} {p : ProverObj V} {i : Nat} (hi : i < P.n) :
    p.Own P (p.ecd.buf.fpSample + i) := by
  refine Or.inr (Or.inr (Or.inr (Or.inr (Or.inl ⟨?_, ?_⟩)))) <;> omega

theorem own_ps {P : CopyParams} {p : ProverObj V} {i : Nat} (hi : i < P.n) :
    p.Own P (p.ecd.buf.pSample + i) := by
  refine Or.inr (Or.inr (Or.inr (Or.inr (Or.inr (Or.inl ⟨?_, ?_⟩))))) <;> omega

theorem own_sh {P : CopyParams} {p : ProverObj V} {i : Nat} (hi : i < P.n) :
    p.Own P (p.ecd.buf.pSampleShift + i) := by
  refine Or.inr (Or.inr (Or.inr (Or.inr (Or.inr (Or.inr ⟨?_, ?_⟩))))) <;> omega

theorem stays_randEncode {P : CopyParams} {p : ProverObj V} (h : p.Allows P R W) (hs : P.slots ≤ P.n)
    (fuel : Nat) (v : List V) (sd : V) : Stays R W (randEncodeProg O P p.ecd fuel v sd) := by
  have hR := h.ownR
  have hW := h.own
  refine stays_bind (stays_baseEncode O (hR _ (by simp [ProverObj.Own]))
    (hW _ (by simp [ProverObj.Own])) v) fun f => ?_
  refine stays_bind (stays_range fun i hi => stays_put (hW _ (own_fp hi))) fun _ => ?_
  refine stays_bind (stays_range fun i hi => ?_) fun _ => ?_
  · refine stays_bind (stays_get (h.ro _ (by simp [ProverObj.Ro]))) fun δ =>
      stays_ite (fun _ => stays_pure _) fun _ => ?_
    refine stays_bind (stays_range fun j hj => ?_) fun _ => stays_range fun j hj => ?_
    · have hj' : P.n - (i + 1) * P.slots + j < P.n := by omega
      exact stays_bind (stays_get (hR _ (own_fp hj'))) fun _ => stays_put (hW _ (own_fp hj'))
    · have hj' : j < P.n := by omega
      exact stays_bind (stays_get (hR _ (own_fp hj'))) fun _ => stays_put (hW _ (own_fp hj'))
  refine stays_bind (stays_range fun i hi => ?_) fun _ => ?_
  · refine stays_bind (stays_get (hR _ (own_fp hi))) fun _ => ?_
    refine stays_bind (stays_ite (fun _ => ?_) fun _ => ?_) fun _ =>
      stays_bind (stays_get h.ringQ) fun _ => stays_put (hW _ (own_ps hi))
    · exact stays_twin O (hR _ (by simp [ProverObj.Own])) (hW _ (by simp [ProverObj.Own]))
        (h.ro _ (by simp [ProverObj.Ro])) _
    · exact stays_cosac O h.zig (hR _ (by simp [ProverObj.Own])) (hW _ (by simp [ProverObj.Own]))
        (hR _ (by simp [ProverObj.Own])) (hW _ (by simp [ProverObj.Own])) _ _ _
  refine stays_bind (stays_get h.ringQ) fun _ => ?_
  refine stays_bind (stays_range fun i hi =>
    stays_bind (stays_get (hR _ (own_ps hi))) fun _ => stays_put (hW _ (own_ps hi))) fun _ => ?_
  refine stays_bind (stays_range fun i hi =>
    stays_bind (stays_get (hR _ (own_ps (by omega)))) fun _ =>
      stays_put (hW _ (own_sh (by omega)))) fun _ => ?_
  refine stays_bind (stays_range fun i hi =>
    stays_bind (stays_get (hR _ (own_ps (by omega)))) fun _ =>
      stays_put (hW _ (own_sh (by omega)))) fun _ => ?_
  refine stays_bind (stays_range fun i hi =>
    stays_bind (stays_get (hR _ (own_ps hi))) fun _ =>
      stays_bind (stays_get (hR _ (own_sh hi))) fun _ => stays_put (hW _ (own_sh hi))) fun _ => ?_
  exact stays_bind (stays_range fun i hi => stays_get (hR _ (own_sh hi))) fun _ => stays_pure _

theorem stays_reconstruct {r : RnsObj} (h1 : R r.acc ∧ W r.acc) (h2 : R r.coeff ∧ W r.coeff)
    (h3 : R r.mul ∧ W r.mul) (h4 : W r.accTmp) (h5 : R r.ringQ) (h6 : R r.gad) (h7 : R r.qHalf)
    (p : V) : Stays R W (reconstructProg O r p) :=
  stays_range fun _ _ => stays_bind (stays_get h5) fun _ => stays_ite (fun _ => stays_pure _) fun _ =>
    stays_bind (stays_put h1.2) fun _ =>
    stays_bind (stays_range fun _ _ => stays_bind (stays_put h2.2) fun _ =>
      stays_bind (stays_get h2.1) fun _ => stays_bind (stays_get h6) fun _ =>
      stays_bind (stays_put h3.2) fun _ => stays_bind (stays_get h1.1) fun _ =>
      stays_bind (stays_get h3.1) fun _ => stays_put h1.2) fun _ =>
    stays_bind (stays_get h1.1) fun _ => stays_bind (stays_put h4) fun _ =>
    stays_bind (stays_put h1.2) fun _ => stays_bind (stays_get h1.1) fun _ =>
    stays_bind (stays_get h7) fun _ =>
    stays_bind (stays_ite (fun _ => stays_put h1.2) fun _ => stays_pure _) fun _ => stays_get h1.1

theorem stays_setBig {r : RnsObj} (h1 : R r.accTmp ∧ W r.accTmp) (h2 : R r.qBig) (v : List V) :
    Stays R W (setBigCoeffProg O r v) :=
  stays_bind (stays_each fun _ _ => stays_range fun _ _ => stays_bind (stays_get h2) fun _ =>
    stays_bind (stays_put h1.2) fun _ => stays_get h1.1) fun _ => stays_pure _

theorem stays_commitCol {P : CopyParams} {p : ProverObj V} (h : p.Allows P R W) (hs : P.slots ≤ P.n)
    (fuel i len : Nat) (v : V) (first last : List V) (rnd : Nat → V) :
    Stays R W (commitColProg O P p fuel i len v first last rnd) := by
  have hR := h.ownR
  have hW := h.own
  have hb : ∀ a, p.Own P a → R a ∧ W a := fun a ha => ⟨hR a ha, hW a ha⟩
  refine stays_bind (stays_ite (fun _ => ?_) fun _ => ?_) fun _ => ?_
  · exact stays_bind (stays_randEncode O h hs _ _ _) fun _ =>
      stays_bind (stays_range fun _ _ => stays_ite (fun _ => stays_pure _) fun _ =>
        stays_randEncode O h hs _ _ _) fun _ =>
      stays_bind (stays_randEncode O h hs _ _ _) fun _ => stays_pure _
  · exact stays_bind (stays_randEncode O h hs _ _ _) fun _ =>
      stays_bind (stays_range fun _ _ => stays_ite (fun _ => stays_pure _) fun _ =>
        stays_randEncode O h hs _ _ _) fun _ =>
      stays_bind (stays_randEncode O h hs _ _ _) fun _ => stays_pure _
  refine stays_bind (stays_get h.ringQ) fun _ => ?_
  refine stays_bind (stays_range fun _ _ => stays_bind (stays_range fun _ _ =>
    stays_ite (fun _ => ?_) fun _ => ?_) fun _ => stays_pure _) fun _ => ?_
  · exact stays_rounded O h.zig (hR _ (by simp [ProverObj.Own])) (hW _ (by simp [ProverObj.Own])) _ _
  · exact stays_twin O (hR _ (by simp [ProverObj.Own])) (hW _ (by simp [ProverObj.Own]))
      (h.ro _ (by simp [ProverObj.Ro])) _
  refine stays_bind (stays_get (h.ro _ (by simp [ProverObj.Ro]))) fun _ => ?_
  refine stays_bind (stays_range fun _ _ => ?_) fun _ => stays_pure _
  refine stays_bind (stays_reconstruct O (hb _ (by simp [ProverObj.Own]))
    (hb _ (by simp [ProverObj.Own])) (hb _ (by simp [ProverObj.Own])) (hW _ (by simp [ProverObj.Own]))
    (h.q ▸ h.ringQ) (h.ro _ (by simp [ProverObj.Ro])) (h.ro _ (by simp [ProverObj.Ro])) _) fun _ => ?_
  refine stays_bind (stays_get h.ringQOut) fun _ => ?_
  exact stays_bind (stays_setBig O (hb _ (by simp [ProverObj.Own])) (h.ro _ (by simp [ProverObj.Ro])) _)
    fun _ => stays_pure _

theorem stays_outer {P : CopyParams} {p : ProverObj V} (h : p.Allows P R W)
    (cols : List (ColOpen V)) : Stays R W (outerProg O P p cols) := by
  have hR := h.ownR
  have hW := h.own
  have hb : ∀ a, p.Own P a → R a ∧ W a := fun a ha => ⟨hR a ha, hW a ha⟩
  refine stays_range fun _ _ => stays_bind (stays_get (h.ro _ (by simp [ProverObj.Ro]))) fun _ =>
    stays_bind (stays_get h.ringQOut) fun _ => ?_
  refine stays_bind (stays_reconstruct O (hb _ (by simp [ProverObj.Own]))
    (hb _ (by simp [ProverObj.Own])) (hb _ (by simp [ProverObj.Own])) (hW _ (by simp [ProverObj.Own]))
    (h.qOut ▸ h.ringQOut) (h.ro _ (by simp [ProverObj.Ro])) (h.ro _ (by simp [ProverObj.Ro])) _)
    fun _ => ?_
  exact stays_bind (stays_setBig O (hb _ (by simp [ProverObj.Own])) (h.ro _ (by simp [ProverObj.Ro])) _)
    fun _ => stays_pure _

/-- The objects of the caller that an argument refers to. -/
def CallArg.Below (n : Nat) : CallArg V → Prop
  | .addr a => a < n
  | .val _ => True

theorem stays_arg {n : Nat} (hn : ∀ a < n, R a) {x : CallArg V} (hx : x.Below n) :
    Stays R W x.prog := by
  cases x with
  | addr a => exact stays_get (hn a hx)
  | val v => exact stays_pure _

theorem stays_commit {P : CopyParams} {p : ProverObj V} (h : p.Allows P R W) (hs : P.slots ≤ P.n)
    {n : Nat} (hn : ∀ a < n, R a) (fuel len : Nat) {vec : CallArg V} (hv : vec.Below n)
    (rnd : Nat → V) : Stays R W (commitProg O P p fuel len vec rnd) :=
  stays_bind (stays_arg hn hv) fun _ =>
    stays_bind (stays_range fun _ _ => stays_commitCol O h hs _ _ _ _ _ _ _) fun _ =>
      stays_bind (stays_outer O h _) fun _ => stays_pure _

theorem stays_evaluate {P : CopyParams} {p : ProverObj V} (h : p.Allows P R W)
    {n : Nat} (hn : ∀ a < n, R a) (x : V) {args : List (CallArg V)} (ha : ∀ y ∈ args, y.Below n) :
    Stays R W (evaluateProg O P p x args) :=
  stays_bind (stays_get (h.ro _ (by simp [ProverObj.Ro]))) fun _ =>
    stays_bind (stays_each fun y hy => stays_arg hn (ha y hy)) fun _ =>
    stays_bind (stays_get h.ringQ) fun _ => stays_bind (stays_get h.ringQOut) fun _ =>
    stays_bind (stays_range fun _ _ => stays_encode O (h.ownR _ (by simp [ProverObj.Own]))
      (h.own _ (by simp [ProverObj.Own])) h.ringQ _) fun _ => stays_pure _

/-- The goroutine only passes values and objects with addresses below `n`. -/
def CopyClient.Below (n : Nat) : CopyClient V → Prop
  | .done _ => True
  | .commit _ _ vec _ k => vec.Below n ∧ ∀ r, (k r).Below n
  | .evaluate _ args k => (∀ y ∈ args, y.Below n) ∧ ∀ r, (k r).Below n

theorem stays_client {P : CopyParams} {p : ProverObj V} (h : p.Allows P R W) (hs : P.slots ≤ P.n)
    {n : Nat} (hn : ∀ a < n, R a) (c : CopyClient V) (hc : c.Below n) :
    Stays R W (c.prog O P p) := by
  induction c with
  | done r => exact stays_ret _
  | commit fuel len vec rnd k ih =>
    exact stays_bind' (stays_commit O h hs hn _ _ hc.1 _) fun r => ih r (hc.2 r)
  | evaluate x args k ih =>
    exact stays_bind' (stays_evaluate O h hn _ hc.1) fun r => ih r (hc.2 r)

end
end Ringo
