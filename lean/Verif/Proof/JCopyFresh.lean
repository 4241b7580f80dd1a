import Verif.Proof.JCopyAlloc

/-! Buffers are written before they are read. -/

namespace Ringo
namespace MemProg
variable {V α β ι : Type}

/-- Cells of `B` are read only if they are in `D` or have been written; `Q` holds of the cells written
and the result at the end. -/
def Fresh (B : Nat → Prop) (Q : (Nat → Prop) → α → Prop) : (Nat → Prop) → MemProg V α → Prop
  | D, ret a => Q D a
  | D, rd a k => (B a → D a) ∧ ∀ v, Fresh B Q D (k v)
  | D, wr a _ k => Fresh B Q (fun x => x = a ∨ D x) k

theorem Fresh.imp {B : Nat → Prop} {Q Q' : (Nat → Prop) → α → Prop} {p : MemProg V α} :
    ∀ {D : Nat → Prop}, Fresh B Q D p →
      (∀ D' a, (∀ x, D x → D' x) → Q D' a → Q' D' a) → Fresh B Q' D p := by
  induction p with
  | ret a => intro D h hq; exact hq D a (fun _ hx => hx) h
  | rd a k ih => intro D h hq; exact ⟨h.1, fun v => ih v (h.2 v) hq⟩
  | wr a v k ih =>
    intro D h hq
    exact ih h fun D' b hd hb => hq D' b (fun x hx => hd x (Or.inr hx)) hb

theorem fresh_bind {B : Nat → Prop} {Q : (Nat → Prop) → β → Prop} {f : α → MemProg V β}
    {p : MemProg V α} : ∀ {D : Nat → Prop},
      Fresh B (fun D' a => Fresh B Q D' (f a)) D p → Fresh B Q D (p >>= f) := by
  change ∀ {D : Nat → Prop}, _ → Fresh B Q D (p.bind f)
  induction p with
  | ret a => intro D h; exact h
  | rd a k ih => intro D h; exact ⟨h.1, fun v => ih v (h.2 v)⟩
  | wr a v k ih => intro D h; exact ih h

theorem fresh_seq {B : Nat → Prop} {Q : (Nat → Prop) → β → Prop} {Q₁ : (Nat → Prop) → α → Prop}
    {f : α → MemProg V β} {p : MemProg V α} {D : Nat → Prop} (hp : Fresh B Q₁ D p)
    (hf : ∀ D' a, (∀ x, D x → D' x) → Q₁ D' a → Fresh B Q D' (f a)) : Fresh B Q D (p >>= f) :=
  fresh_bind (hp.imp hf)

theorem fresh_pure {B : Nat → Prop} {Q : (Nat → Prop) → α → Prop} {D : Nat → Prop} {a : α}
    (h : Q D a) : Fresh B Q D (pure a : MemProg V α) := h

theorem fresh_get {B : Nat → Prop} {D : Nat → Prop} {a : Nat} (h : B a → D a) :
    Fresh B (fun _ _ => True) D (get a : MemProg V V) := ⟨h, fun _ => trivial⟩

theorem fresh_put {B : Nat → Prop} {D : Nat → Prop} {a : Nat} {v : V} :
    Fresh B (fun D' _ => D' a) D (put a v : MemProg V Unit) := Or.inl rfl

theorem fresh_ite {B : Nat → Prop} {Q : (Nat → Prop) → α → Prop} {D : Nat → Prop} {c : Prop}
    [Decidable c] {p q : MemProg V α} (hp : Fresh B Q D p) (hq : Fresh B Q D q) :
    Fresh B Q D (if c then p else q) := by
  by_cases h : c
  · rw [if_pos h]; exact hp
  · rw [if_neg h]; exact hq

/-- A loop: each iteration is fine whatever has been written before, and has written `W i`. -/
theorem fresh_each {B : Nat → Prop} {W : ι → Nat → Prop} (l : List ι) {f : ι → MemProg V β} :
    ∀ {D : Nat → Prop},
      (∀ i ∈ l, ∀ D', (∀ x, D x → D' x) → Fresh B (fun D'' _ => ∀ x, W i x → D'' x) D' (f i)) →
      Fresh B (fun D' _ => ∀ i ∈ l, ∀ x, W i x → D' x) D (each l f) := by
  induction l with
  | nil => intro D _ i hi; simp at hi
  | cons i l ih =>
    intro D h
    change Fresh B _ D ((f i) >>= fun b => (each l f) >>= fun bs => ret (b :: bs))
    refine fresh_seq (h i (by simp) D fun _ hx => hx) fun D₁ b hD₁ h₁ => ?_
    refine fresh_seq (ih fun j hj D' hD' => h j (by simp [hj]) D' fun x hx => hD' x (hD₁ x hx))
      fun D₂ bs hD₂ h₂ => ?_
    intro j hj x hx
    rcases List.mem_cons.1 hj with rfl | hj
    · exact hD₂ x (h₁ x hx)
    · exact h₂ j hj x hx

theorem fresh_each' {B : Nat → Prop} (l : List ι) {f : ι → MemProg V β} {D : Nat → Prop}
    (h : ∀ i ∈ l, ∀ D', (∀ x, D x → D' x) → Fresh B (fun _ _ => True) D' (f i)) :
    Fresh B (fun _ _ => True) D (each l f) :=
  (fresh_each (W := fun _ _ => False) l fun i hi D' hD' =>
    (h i hi D' hD').imp fun _ _ _ _ _ hx => hx.elim).imp fun _ _ _ _ => trivial

/-- The result does not depend on what was in the cells of `B`. -/
theorem Fresh.run_eq {B : Nat → Prop} {Q : (Nat → Prop) → α → Prop} {p : MemProg V α} :
    ∀ {D : Nat → Prop}, Fresh B Q D p → ∀ m m' : Nat → V, (∀ a, (B a → D a) → m a = m' a) →
      (p.run m).1 = (p.run m').1 ∧ ∀ a, (B a → D a) → (p.run m).2 a = (p.run m').2 a := by
  induction p with
  | ret a => intro D _ m m' hm; exact ⟨rfl, hm⟩
  | rd a k ih =>
    intro D h m m' hm
    change ((k (m a)).run m).1 = ((k (m' a)).run m').1 ∧ _
    have e := hm a h.1
    have := ih (m a) (h.2 _) m m' hm
    rw [← e]
    refine ⟨this.1, fun b hb => ?_⟩
    change ((k (m a)).run m).2 b = ((k (m' a)).run m').2 b
    rw [← e]
    exact this.2 b hb
  | wr a v k ih =>
    intro D h m m' hm
    have := ih h (Function.update m a v) (Function.update m' a v) (by
      intro b hb
      by_cases e : b = a
      · subst e; simp
      · simp only [Function.update, e, dite_false]
        exact hm b fun hB => (hb hB).resolve_left e)
    exact ⟨this.1, fun b hb => this.2 b fun hB => Or.inr (hb hB)⟩

/-- Loops that keep a relation between two memories. -/
theorem run_each_rel {S : (Nat → V) → (Nat → V) → Prop} {f f' : ι → MemProg V β}
    (h : ∀ i m m', S m m' → ((f i).run m).1 = ((f' i).run m').1 ∧ S ((f i).run m).2 ((f' i).run m').2)
    (l : List ι) : ∀ m m', S m m' → ((each l f).run m).1 = ((each l f').run m').1 ∧
      S ((each l f).run m).2 ((each l f').run m').2 := by
  induction l with
  | nil => intro m m' hS; exact ⟨rfl, hS⟩
  | cons i l ih =>
    intro m m' hS
    obtain ⟨h1, h2⟩ := h i m m' hS
    obtain ⟨h3, h4⟩ := ih _ _ h2
    rw [run_each_cons, run_each_cons]
    exact ⟨by simp only [h1, h3], h4⟩

end MemProg

section
variable {V : Type} (O : CopyOps V)
open MemProg

variable {B D : Nat → Prop}

theorem fresh_sample {s : Nat} (hs : ¬ B s) : Fresh B (fun _ _ => True) D (sampleProg O s) :=
  fresh_seq (fresh_get fun h => (hs h).elim) fun _ _ _ _ =>
    fresh_seq fresh_put fun _ _ _ _ => fresh_pure trivial

theorem fresh_float {s : Nat} (hs : ¬ B s) : Fresh B (fun _ _ => True) D (floatProg O s) :=
  fresh_seq (fresh_sample O hs) fun _ _ _ _ => fresh_pure trivial

theorem fresh_tail {s : Nat} (hs : ¬ B s) (r : V) (fuel : Nat) : ∀ {D : Nat → Prop},
    Fresh B (fun _ _ => True) D (tailProg O s r fuel) := by
  induction fuel with
  | zero => intro D; exact fresh_pure trivial
  | succ n ih =>
    intro D
    exact fresh_seq (fresh_float O hs) fun _ _ _ _ => fresh_seq (fresh_float O hs) fun _ _ _ _ =>
      fresh_ite (fresh_pure trivial) ih

theorem fresh_norm {zig s : Nat} (hz : ¬ B zig) (hs : ¬ B s) (fuel : Nat) : ∀ {D : Nat → Prop},
    Fresh B (fun _ _ => True) D (normProg O zig s fuel) := by
  induction fuel with
  | zero => intro D; exact fresh_pure trivial
  | succ n ih =>
    intro D
    exact fresh_seq (fresh_sample O hs) fun _ _ _ _ =>
      fresh_seq (fresh_get fun h => (hz h).elim) fun _ _ _ _ => fresh_ite (fresh_pure trivial)
        (fresh_ite (fresh_tail O hs _ _) (fresh_seq (fresh_float O hs) fun _ _ _ _ =>
          fresh_ite (fresh_pure trivial) ih))

theorem fresh_rounded {zig s : Nat} (hz : ¬ B zig) (hs : ¬ B s) (fuel : Nat) (sd : V) :
    Fresh B (fun _ _ => True) D (roundedProg O zig s fuel sd) :=
  fresh_seq (fresh_norm O hz hs fuel) fun _ _ _ _ => fresh_pure trivial

theorem fresh_twin {s : TwinObj V} (hs : ¬ B s.base) (ht : ¬ B s.tables) (c : V) :
    Fresh B (fun _ _ => True) D (twinProg O s c) :=
  fresh_seq (fresh_sample O hs) fun _ _ _ _ =>
    fresh_seq (fresh_get fun h => (ht h).elim) fun _ _ _ _ => fresh_pure trivial

theorem fresh_cosacRound {zig : Nat} {s : CosacObj} (hz : ¬ B zig) (hs : ¬ B s.base)
    (hs' : ¬ B s.rounded) (c sd : V) (inner fuel : Nat) : ∀ {D : Nat → Prop},
    Fresh B (fun _ _ => True) D (cosacRoundProg O zig s c sd inner fuel) := by
  induction fuel with
  | zero => intro D; exact fresh_pure trivial
  | succ n ih =>
    intro D
    exact fresh_seq (fresh_norm O hz hs' _) fun _ _ _ _ => fresh_seq (fresh_sample O hs) fun _ _ _ _ =>
      fresh_ite (fresh_seq (fresh_float O hs) fun _ _ _ _ => fresh_ite (fresh_pure trivial) ih) ih

theorem fresh_cosac {zig : Nat} {s : CosacObj} (hz : ¬ B zig) (hs : ¬ B s.base)
    (hs' : ¬ B s.rounded) (c sd : V) (fuel : Nat) :
    Fresh B (fun _ _ => True) D (cosacProg O zig s c sd fuel) :=
  fresh_seq (fresh_float O hs) fun _ _ _ _ => fresh_ite (fresh_pure trivial)
    (fresh_seq (fresh_cosacRound O hz hs hs' _ _ _ _) fun _ _ _ _ => fresh_pure trivial)

theorem fresh_baseEncode {P : CopyParams} {e : EncObj V} (v : List V) :
    Fresh B (fun _ _ => True) D (baseEncodeProg O P e v) := by
  refine fresh_seq (fresh_each' v fun x _ D₁ _ => ?_) fun _ _ _ _ => fresh_pure trivial
  refine fresh_seq fresh_put fun D₂ _ _ h2 => ?_
  refine fresh_seq (fresh_each' _ fun i _ D₃ h3 => ?_) fun D₃ _ h3 _ => ?_
  · exact fresh_seq (fresh_get fun _ => h3 _ h2) fun _ _ _ _ =>
      fresh_seq fresh_put fun _ _ _ _ => fresh_pure trivial
  · exact fresh_seq (fresh_get fun _ => h3 _ h2) fun _ _ _ _ => fresh_pure trivial

theorem fresh_encode {P : CopyParams} {e : EncObj V} (hq : ¬ B P.ringQ) (v : List V) :
    Fresh B (fun _ _ => True) D (encodeProg O P e v) :=
  fresh_seq (fresh_baseEncode O v) fun _ _ _ _ =>
    fresh_seq (fresh_get fun h => (hq h).elim) fun _ _ _ _ => fresh_pure trivial

/-- What is not a buffer of the prover. -/
structure ProverObj.Keeps (P : CopyParams) (p : ProverObj V) (B : Nat → Prop) : Prop where
  ro : ∀ a, p.Ro a → ¬ B a
  smp : ∀ a ∈ p.samplers, ¬ B a
  ringQ : ¬ B P.ringQ
  ringQOut : ¬ B P.ringQOut
  zig : ¬ B P.zig
  q : p.ecd.rns.ringQ = P.ringQ
  qOut : p.rnsOut.ringQ = P.ringQOut

theorem fresh_randEncode {P : CopyParams} {p : ProverObj V} (h : p.Keeps P B) (hs : P.slots ≤ P.n)
    (fuel : Nat) (v : List V) (sd : V) :
    Fresh B (fun _ _ => True) D (randEncodeProg O P p.ecd fuel v sd) := by
  refine fresh_seq (fresh_baseEncode O v) fun D₁ f _ _ => ?_
  refine fresh_seq (fresh_each (W := fun i x => x = p.ecd.buf.fpSample + i) _ fun i _ D₂ _ =>
    Fresh.imp fresh_put fun D₃ _ _ h3 x hx => hx ▸ h3) fun D₂ _ _ h2 => ?_
  have hfp : ∀ D' : Nat → Prop, (∀ x, D₂ x → D' x) → ∀ i < P.n, D' (p.ecd.buf.fpSample + i) :=
    fun D' hD i hi => hD _ (h2 i (List.mem_range.2 hi) _ rfl)
  refine fresh_seq (fresh_each' _ fun i _ D₃ h3 => ?_) fun D₃ _ h3 _ => ?_
  · refine fresh_seq (fresh_get fun hb => ((h.ro _ (by simp [ProverObj.Ro])) hb).elim)
      fun D₄ δ h4 _ => fresh_ite (fresh_pure trivial) ?_
    have h4' : ∀ x, D₂ x → D₄ x := fun x hx => h4 x (h3 x hx)
    refine fresh_seq (fresh_each' _ fun j hj D₅ h5 => ?_) fun D₅ _ h5 _ =>
      fresh_each' _ fun j hj D₆ h6 => ?_
    · have := List.mem_range.1 hj
      exact fresh_seq (fresh_get fun _ => hfp D₅ (fun x hx => h5 x (h4' x hx)) _ (by omega))
        fun _ _ _ _ => Fresh.imp fresh_put fun _ _ _ _ => trivial
    · have := List.mem_range.1 hj
      exact fresh_seq (fresh_get fun _ => hfp D₆ (fun x hx => h6 x (h5 x (h4' x hx))) _ (by omega))
        fun _ _ _ _ => Fresh.imp fresh_put fun _ _ _ _ => trivial
  refine fresh_seq (fresh_each (W := fun i x => x = p.ecd.buf.pSample + i) _ fun i hi D₄ h4 => ?_)
    fun D₄ _ h4 h4p => ?_
  · refine fresh_seq (fresh_get fun _ => hfp D₄ (fun x hx => h4 x (h3 x hx)) _ (List.mem_range.1 hi))
      fun _ _ _ _ => ?_
    refine fresh_seq (Q₁ := fun _ _ => True) (fresh_ite ?_ ?_) fun _ _ _ _ =>
      fresh_seq (fresh_get fun hb => (h.ringQ hb).elim) fun _ _ _ _ =>
        Fresh.imp fresh_put fun D₃ _ _ h3 x hx => hx ▸ h3
    · exact fresh_twin O (h.smp _ (by simp [ProverObj.samplers])) (h.ro _ (by simp [ProverObj.Ro])) _
    · exact fresh_cosac O h.zig (h.smp _ (by simp [ProverObj.samplers]))
        (h.smp _ (by simp [ProverObj.samplers])) _ _ _
  have hps : ∀ D' : Nat → Prop, (∀ x, D₄ x → D' x) → ∀ i < P.n, D' (p.ecd.buf.pSample + i) :=
    fun D' hD i hi => hD _ (h4p i (List.mem_range.2 hi) _ rfl)
  refine fresh_seq (fresh_get fun hb => (h.ringQ hb).elim) fun D₅ q h5 _ => ?_
  refine fresh_seq (fresh_each' _ fun i hi D₆ h6 => ?_) fun D₆ _ h6 _ => ?_
  · exact fresh_seq (fresh_get fun _ => hps D₆ (fun x hx => h6 x (h5 x hx)) _ (List.mem_range.1 hi))
      fun _ _ _ _ => Fresh.imp fresh_put fun _ _ _ _ => trivial
  refine fresh_seq (fresh_each (W := fun i x => x = p.ecd.buf.pSampleShift + (P.slots + i)) _
    fun i hi D₇ h7 => ?_) fun D₇ _ h7 h7s => ?_
  · have := List.mem_range.1 hi
    exact fresh_seq (fresh_get fun _ => hps D₇ (fun x hx => h7 x (h6 x (h5 x hx))) _ (by omega))
      fun _ _ _ _ => Fresh.imp fresh_put fun D₃ _ _ h3 x hx => hx ▸ h3
  refine fresh_seq (fresh_each (W := fun i x => x = p.ecd.buf.pSampleShift + i) _
    fun i hi D₈ h8 => ?_) fun D₈ _ h8 h8s => ?_
  · have := List.mem_range.1 hi
    exact fresh_seq (fresh_get fun _ => hps D₈ (fun x hx => h8 x (h7 x (h6 x (h5 x hx)))) _ (by omega))
      fun _ _ _ _ => Fresh.imp fresh_put fun D₃ _ _ h3 x hx => hx ▸ h3
  have hsh : ∀ D' : Nat → Prop, (∀ x, D₈ x → D' x) → ∀ i < P.n, D' (p.ecd.buf.pSampleShift + i) := by
    intro D' hD i hi
    by_cases hlt : i < P.slots
    · exact hD _ (h8s i (List.mem_range.2 hlt) _ rfl)
    · refine hD _ (h8 _ (h7s (i - P.slots) (List.mem_range.2 (by omega)) _ ?_))
      omega
  refine fresh_seq (fresh_each' _ fun i hi D₉ h9 => ?_) fun D₉ _ h9 _ => ?_
  · have hi := List.mem_range.1 hi
    exact fresh_seq (fresh_get fun _ =>
        hps D₉ (fun x hx => h9 x (h8 x (h7 x (h6 x (h5 x hx))))) _ hi) fun D₁₀ _ h10 _ =>
      fresh_seq (fresh_get fun _ => hsh D₁₀ (fun x hx => h10 x (h9 x hx)) _ hi) fun _ _ _ _ =>
        Fresh.imp fresh_put fun _ _ _ _ => trivial
  exact fresh_seq (fresh_each' _ fun i hi D₁₀ h10 =>
    fresh_get fun _ => hsh D₁₀ (fun x hx => h10 x (h9 x hx)) _ (List.mem_range.1 hi))
    fun _ _ _ _ => fresh_pure trivial

theorem fresh_reconstruct {r : RnsObj} (h5 : ¬ B r.ringQ) (h6 : ¬ B r.gad) (h7 : ¬ B r.qHalf)
    (p : V) : Fresh B (fun _ _ => True) D (reconstructProg O r p) := by
  refine fresh_each' _ fun i _ D₁ _ => ?_
  refine fresh_seq (fresh_get fun h => (h5 h).elim) fun D₂ q _ _ => fresh_ite (fresh_pure trivial) ?_
  refine fresh_seq fresh_put fun D₃ _ _ h3 => ?_
  refine fresh_seq (fresh_each' _ fun j _ D₄ h4 => ?_) fun D₄ _ h4 _ => ?_
  · refine fresh_seq fresh_put fun D₅ _ h5' hc => ?_
    refine fresh_seq (fresh_get fun _ => hc) fun D₆ _ h6' _ => ?_
    refine fresh_seq (fresh_get fun h => (h6 h).elim) fun D₇ _ h7' _ => ?_
    refine fresh_seq fresh_put fun D₈ _ h8 hm => ?_
    refine fresh_seq (fresh_get fun _ => h8 _ (h7' _ (h6' _ (h5' _ (h4 _ h3))))) fun D₉ _ h9 _ => ?_
    exact fresh_seq (fresh_get fun _ => h9 _ hm) fun _ _ _ _ =>
      Fresh.imp fresh_put fun _ _ _ _ => trivial
  refine fresh_seq (fresh_get fun _ => h4 _ h3) fun D₅ _ h5' _ => ?_
  refine fresh_seq fresh_put fun D₆ _ _ _ => ?_
  refine fresh_seq fresh_put fun D₇ _ _ ha => ?_
  refine fresh_seq (fresh_get fun _ => ha) fun D₈ _ h8 _ => ?_
  refine fresh_seq (fresh_get fun h => (h7 h).elim) fun D₉ _ h9 _ => ?_
  refine fresh_seq (Q₁ := fun _ _ => True) (fresh_ite (Fresh.imp fresh_put fun _ _ _ _ => trivial)
    (fresh_pure trivial)) fun D₁₀ _ h10 _ => ?_
  exact fresh_get fun _ => h10 _ (h9 _ (h8 _ ha))

theorem fresh_setBig {r : RnsObj} (h : ¬ B r.qBig) (v : List V) :
    Fresh B (fun _ _ => True) D (setBigCoeffProg O r v) :=
  fresh_seq (fresh_each' _ fun _ _ _ _ => fresh_each' _ fun _ _ _ _ =>
    fresh_seq (fresh_get fun hb => (h hb).elim) fun _ _ _ _ =>
    fresh_seq fresh_put fun _ _ _ h1 => fresh_get fun _ => h1) fun _ _ _ _ => fresh_pure trivial

theorem fresh_commitCol {P : CopyParams} {p : ProverObj V} (h : p.Keeps P B) (hs : P.slots ≤ P.n)
    (fuel i len : Nat) (v : V) (first last : List V) (rnd : Nat → V) :
    Fresh B (fun _ _ => True) D (commitColProg O P p fuel i len v first last rnd) := by
  refine fresh_seq (Q₁ := fun _ _ => True) (fresh_ite ?_ ?_) fun _ _ _ _ => ?_
  · exact fresh_seq (fresh_randEncode O h hs _ _ _) fun _ _ _ _ =>
      fresh_seq (fresh_each' _ fun _ _ _ _ => fresh_ite (fresh_pure trivial)
        (fresh_randEncode O h hs _ _ _)) fun _ _ _ _ =>
      fresh_seq (fresh_randEncode O h hs _ _ _) fun _ _ _ _ => fresh_pure trivial
  · exact fresh_seq (fresh_randEncode O h hs _ _ _) fun _ _ _ _ =>
      fresh_seq (fresh_each' _ fun _ _ _ _ => fresh_ite (fresh_pure trivial)
        (fresh_randEncode O h hs _ _ _)) fun _ _ _ _ =>
      fresh_seq (fresh_randEncode O h hs _ _ _) fun _ _ _ _ => fresh_pure trivial
  refine fresh_seq (fresh_get fun hb => (h.ringQ hb).elim) fun _ _ _ _ => ?_
  refine fresh_seq (fresh_each' _ fun _ _ _ _ => fresh_seq (fresh_each' _ fun _ _ _ _ =>
    fresh_ite ?_ ?_) fun _ _ _ _ => fresh_pure trivial) fun _ _ _ _ => ?_
  · exact fresh_rounded O h.zig (h.smp _ (by simp [ProverObj.samplers])) _ _
  · exact fresh_twin O (h.smp _ (by simp [ProverObj.samplers])) (h.ro _ (by simp [ProverObj.Ro])) _
  refine fresh_seq (fresh_get fun hb => ((h.ro _ (by simp [ProverObj.Ro])) hb).elim) fun _ _ _ _ => ?_
  refine fresh_seq (fresh_each' _ fun _ _ _ _ => ?_) fun _ _ _ _ => fresh_pure trivial
  refine fresh_seq (fresh_reconstruct O (h.q ▸ h.ringQ) (h.ro _ (by simp [ProverObj.Ro]))
    (h.ro _ (by simp [ProverObj.Ro])) _) fun _ _ _ _ => ?_
  refine fresh_seq (fresh_get fun hb => (h.ringQOut hb).elim) fun _ _ _ _ => ?_
  exact fresh_seq (fresh_setBig O (h.ro _ (by simp [ProverObj.Ro])) _) fun _ _ _ _ => fresh_pure trivial

theorem fresh_outer {P : CopyParams} {p : ProverObj V} (h : p.Keeps P B) (cols : List (ColOpen V)) :
    Fresh B (fun _ _ => True) D (outerProg O P p cols) := by
  refine fresh_each' _ fun _ _ _ _ =>
    fresh_seq (fresh_get fun hb => ((h.ro _ (by simp [ProverObj.Ro])) hb).elim) fun _ _ _ _ =>
    fresh_seq (fresh_get fun hb => (h.ringQOut hb).elim) fun _ _ _ _ => ?_
  refine fresh_seq (fresh_reconstruct O (h.qOut ▸ h.ringQOut) (h.ro _ (by simp [ProverObj.Ro]))
    (h.ro _ (by simp [ProverObj.Ro])) _) fun _ _ _ _ => ?_
  exact fresh_seq (fresh_setBig O (h.ro _ (by simp [ProverObj.Ro])) _) fun _ _ _ _ => fresh_pure trivial

theorem fresh_arg {n : Nat} (hn : ∀ a < n, ¬ B a) {x : CallArg V} (hx : x.Below n) :
    Fresh B (fun _ _ => True) D x.prog := by
  cases x with
  | addr a => exact fresh_get fun hb => (hn a hx hb).elim
  | val v => exact fresh_pure trivial

theorem fresh_client {P : CopyParams} {p : ProverObj V} (h : p.Keeps P B) (hs : P.slots ≤ P.n)
    {n : Nat} (hn : ∀ a < n, ¬ B a) (c : CopyClient V) : ∀ {D : Nat → Prop}, c.Below n →
    Fresh B (fun _ _ => True) D (c.prog O P p) := by
  induction c with
  | done r => intro D _; exact trivial
  | commit fuel len vec rnd k ih =>
    intro D hc
    change Fresh B _ D (commitProg O P p fuel len vec rnd >>= fun r => (k r).prog O P p)
    refine fresh_seq (Q₁ := fun _ _ => True) ?_ fun _ r _ _ => ih r (hc.2 r)
    exact fresh_seq (fresh_arg hn hc.1) fun _ _ _ _ => fresh_seq (fresh_each' _ fun _ _ _ _ =>
      fresh_commitCol O h hs _ _ _ _ _ _ _) fun _ _ _ _ => fresh_seq (fresh_outer O h _)
      fun _ _ _ _ => fresh_pure trivial
  | evaluate x args k ih =>
    intro D hc
    change Fresh B _ D (evaluateProg O P p x args >>= fun r => (k r).prog O P p)
    refine fresh_seq (Q₁ := fun _ _ => True) ?_ fun _ r _ _ => ih r (hc.2 r)
    exact fresh_seq (fresh_get fun hb => ((h.ro _ (by simp [ProverObj.Ro])) hb).elim) fun _ _ _ _ =>
      fresh_seq (fresh_each' _ fun y hy _ _ => fresh_arg hn (hc.1 y hy)) fun _ _ _ _ =>
      fresh_seq (fresh_get fun hb => (h.ringQ hb).elim) fun _ _ _ _ =>
      fresh_seq (fresh_get fun hb => (h.ringQOut hb).elim) fun _ _ _ _ =>
      fresh_seq (fresh_each' _ fun _ _ _ _ => fresh_encode O h.ringQ _) fun _ _ _ _ => fresh_pure trivial

/-! ### `Evaluate` on two provers -/

theorem baseEncode_rel {P : CopyParams} {e e' : EncObj V} {K : Nat → Prop} (h1 : ¬ K e.buf.coeff)
    (h2 : ¬ K e'.buf.coeff) (v : List V) (m m' : Nat → V) (hm : ∀ a, K a → m a = m' a) :
    ((baseEncodeProg O P e v).run m).1 = ((baseEncodeProg O P e' v).run m').1 ∧
      ∀ a, K a → ((baseEncodeProg O P e v).run m).2 a = ((baseEncodeProg O P e' v).run m').2 a := by
  have hne : ∀ a, K a → a ≠ e.buf.coeff ∧ a ≠ e'.buf.coeff :=
    fun a ha => ⟨fun x => h1 (x ▸ ha), fun x => h2 (x ▸ ha)⟩
  unfold baseEncodeProg
  rw [run_bind, run_bind, run_pure, run_pure]
  refine (fun h => ⟨by rw [h.1], h.2⟩) (run_each_rel (S := fun m m' => ∀ a, K a → m a = m' a) ?_ v m m' hm)
  intro x m m' hm
  simp only [run_bind, run_put, run_pure, run_get]
  obtain ⟨h3, h4⟩ := run_each_rel (V := V) (ι := Nat)
    (S := fun m m' => m e.buf.coeff = m' e'.buf.coeff ∧ ∀ a, K a → m a = m' a)
    (f := fun _ => do
      let c ← get e.buf.coeff
      put e.buf.coeff (O.fn .quot [c])
      pure (O.fn .rem [c]))
    (f' := fun _ => do
      let c ← get e'.buf.coeff
      put e'.buf.coeff (O.fn .quot [c])
      pure (O.fn .rem [c])) (by
      intro i m m' hS
      simp only [run_bind, run_put, run_pure, run_get, hS.1, Function.update_self, true_and]
      intro a ha
      simp [Function.update, (hne a ha).1, (hne a ha).2, hS.2 a ha]) (List.range (P.exp - 1))
    (Function.update m e.buf.coeff (O.fn .slice [x])) (Function.update m' e'.buf.coeff (O.fn .slice [x]))
    ⟨by simp, fun a ha => by simp [Function.update, (hne a ha).1, (hne a ha).2, hm a ha]⟩
  exact ⟨by rw [h3, h4.1], h4.2⟩

theorem evaluate_rel {P : CopyParams} {p p' : ProverObj V} {K : Nat → Prop}
    (h1 : ¬ K p.ecd.buf.coeff) (h2 : ¬ K p'.ecd.buf.coeff) (hck : p.ck = p'.ck) (hk : K p.ck)
    (hq : K P.ringQ) (hq' : K P.ringQOut) {n : Nat} (hn : ∀ a < n, K a) (x : V)
    {args : List (CallArg V)} (ha : ∀ y ∈ args, y.Below n) (m m' : Nat → V)
    (hm : ∀ a, K a → m a = m' a) :
    ((evaluateProg O P p x args).run m).1 = ((evaluateProg O P p' x args).run m').1 := by
  have hargs : ∀ l : List (CallArg V), (∀ y ∈ l, y.Below n) →
      (each l CallArg.prog).run m = (l.map (fun y => (y.prog.run m).1), m) ∧
      (each l CallArg.prog).run m' = (l.map (fun y => (y.prog.run m).1), m') := by
    intro l
    induction l with
    | nil => intro _; exact ⟨rfl, rfl⟩
    | cons y l ih =>
      intro hl
      obtain ⟨i1, i2⟩ := ih fun z hz => hl z (by simp [hz])
      have hy := hl y (by simp)
      rw [run_each_cons, run_each_cons]
      cases y with
      | addr a =>
        have e := hm a (hn a hy)
        simp only [CallArg.prog, run_get, List.map_cons, i1, i2, e, and_self]
      | val v => simp only [CallArg.prog, run_pure, List.map_cons, i1, i2, and_self]
  obtain ⟨i1, i2⟩ := hargs args ha
  unfold evaluateProg
  simp only [run_bind, run_get, i1, i2, run_pure, ← hck, hm _ hk, hm _ hq, hm _ hq']
  have := (run_each_rel (V := V) (S := fun m m' => ∀ a, K a → m a = m' a)
    (f := fun i => encodeProg O P p.ecd [O.fn (.left i) [x]])
    (f' := fun i => encodeProg O P p'.ecd [O.fn (.left i) [x]]) (by
      intro i m m' hS
      obtain ⟨j1, j2⟩ := baseEncode_rel (P := P) O h1 h2 [O.fn (.left i) [x]] m m' hS
      unfold encodeProg
      simp only [run_bind, run_get, run_pure]
      exact ⟨by rw [j1, j2 _ hq], j2⟩) (List.range P.rows) m m' hm).1
  rw [this]

end
end Ringo
