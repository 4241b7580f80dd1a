import Verif.Proof.PolyOps
import Verif.Props.NTT

/-!
# C14, C16 - C22: polynomials
-/

namespace Ringo

open Polynomial

section
variable (p : Nat) [hp : Fact p.Prime]

/-! ## C14: multiplication -/

theorem mul_via_ntt {F : Type} [Field F] {K : Nat} {M : F[X]} {pt : Nat → F} {ev : Evaluator F}
    (h : GoodEv K M pt ev) (a b : List F) (ha : a.length = 2 ^ K) (hb : b.length = 2 ^ K) :
    ∃ w, (do
        let x ← ev.toNTT ⟨a, false⟩
        let y ← ev.toNTT ⟨b, false⟩
        let z ← ev.mul x y
        ev.toCoeff z) = .ok ⟨w, false⟩ ∧ w.length = 2 ^ K ∧
      M ∣ listPoly a * listPoly b - listPoly w := by
  have hl : ∀ n, (newPoly ev.rank n : Poly F).coeffs.length = 2 ^ K := by
    intro n; simp [newPoly, h.rank]
  have sa : StandsFor (2 ^ K) M pt ⟨a, false⟩ (listPoly a) := ⟨ha, by simp⟩
  have sb : StandsFor (2 ^ K) M pt ⟨b, false⟩ (listPoly b) := ⟨hb, by simp⟩
  obtain ⟨x, x1, x2, -⟩ := h.nttTo_ok (newPoly ev.rank true) ⟨a, false⟩ (hl _) ha rfl
  obtain ⟨y, y1, y2, -⟩ := h.nttTo_ok (newPoly ev.rank true) ⟨b, false⟩ (hl _) hb rfl
  have sx := (sf_ntt h sa x1).1
  have sy := (sf_ntt h sb y1).1
  have hm : ev.mul ⟨x, true⟩ ⟨y, true⟩ = .ok ⟨List.zipWith (· * ·) x y, true⟩ := by
    unfold Evaluator.mul Evaluator.mulTo
    have hc : checkBinary ev.rank (newPoly ev.rank true) ⟨x, true⟩ ⟨y, true⟩ = .ok () :=
      checkBinary_ok (by rw [hl, h.rank]) (by rw [h.rank]; exact x2) (by rw [h.rank]; exact y2) rfl
    rw [hc]
    rfl
  obtain ⟨w, w1, w2, -⟩ := h.invNTTTo_ok (newPoly ev.rank false) ⟨List.zipWith (· * ·) x y, true⟩
    (hl _) (by simp [x2, y2]) rfl
  have sw := (sf_intt h (sf_mul h sx sy hm) w1).1
  refine ⟨w, ?_, w2, ?_⟩
  · unfold Evaluator.toNTT Evaluator.toCoeff
    rw [x1, go_bind_ok, y1, go_bind_ok, hm, go_bind_ok, w1]
  · have := sw.2
    simpa using this

/-- **C14** (cyclic): transforming, multiplying slot-wise and transforming back is
multiplication modulo `X^N - 1`. -/
theorem C14_cyclicMul (K : Nat) (hK : 3 ≤ K) (ev : Evaluator (ZMod p))
    (hev : newCyclicEvaluator p (2 ^ K) = .ok ev) (a b : List (ZMod p))
    (ha : a.length = 2 ^ K) (hb : b.length = 2 ^ K) :
    ∃ w, (do
        let x ← ev.toNTT ⟨a, false⟩
        let y ← ev.toNTT ⟨b, false⟩
        let z ← ev.mul x y
        ev.toCoeff z) = .ok ⟨w, false⟩ ∧ w.length = 2 ^ K ∧
      (X ^ 2 ^ K - 1) ∣ listPoly a * listPoly b - listPoly w := by
  obtain ⟨g, -, h⟩ := cyclicEv_good p K hK ev hev
  exact mul_via_ntt h a b ha hb

/-- **C14** (cyclotomic): multiplication modulo `X^N + 1`. -/
theorem C14_cyclotomicMul (K : Nat) (hK : 3 ≤ K) (ev : Evaluator (ZMod p))
    (hev : newCyclotomicEvaluator p (2 ^ K) = .ok ev) (a b : List (ZMod p))
    (ha : a.length = 2 ^ K) (hb : b.length = 2 ^ K) :
    ∃ w, (do
        let x ← ev.toNTT ⟨a, false⟩
        let y ← ev.toNTT ⟨b, false⟩
        let z ← ev.mul x y
        ev.toCoeff z) = .ok ⟨w, false⟩ ∧ w.length = 2 ^ K ∧
      (X ^ 2 ^ K + 1) ∣ listPoly a * listPoly b - listPoly w := by
  obtain ⟨g, -, -, h⟩ := cyclotomicEv_good p K hK ev hev
  exact mul_via_ntt h a b ha hb

/-- An accepted evaluator, used in the examples below. -/
theorem ev17 : ∃ ev, @newCyclotomicEvaluator 17 ⟨by norm_num⟩ (2 ^ 3) = .ok ev := by
  obtain ⟨T, g, h1, -⟩ := @C09_cyclotomic 17 ⟨by norm_num⟩ 3 (by norm_num)
  exact ⟨⟨2 ^ 3, T⟩, by unfold newCyclotomicEvaluator; rw [h1]; rfl⟩

/-- Non-vacuity: `X^7 * X^7 = -X^6` modulo `X^8 + 1` over the field of 17 elements, as computed
by the evaluator. -/
example : ∃ ev w, @newCyclotomicEvaluator 17 ⟨by norm_num⟩ (2 ^ 3) = .ok ev ∧ (do
        let x ← ev.toNTT ⟨[0, 0, 0, 0, 0, 0, 0, 1], false⟩
        let z ← ev.mul x x
        ev.toCoeff z) = .ok ⟨w, false⟩ ∧ w.length = 8 := by
  have : Fact (Nat.Prime 17) := ⟨by norm_num⟩
  obtain ⟨ev, hev⟩ := ev17
  obtain ⟨w, h1, h2, -⟩ := C14_cyclotomicMul 17 3 le_rfl ev hev [0, 0, 0, 0, 0, 0, 0, 1]
    [0, 0, 0, 0, 0, 0, 0, 1] rfl rfl
  refine ⟨ev, w, hev, ?_, h2⟩
  cases hx : ev.toNTT ⟨[0, 0, 0, 0, 0, 0, 0, 1], false⟩ with
  | error e => rw [hx] at h1; cases h1
  | ok x => rw [hx] at h1; exact h1

end

/-! ## C16: the NTT flag -/

/-- One call on a file of polynomials: the names are the registers read and written. -/
inductive POp (F : Type) where
  | add (o a b : Nat) | sub (o a b : Nat) | neg (o a : Nat) | smul (o a : Nat) (c : F)
  | smulAdd (o a : Nat) (c : F) | smulSub (o a : Nat) (c : F)
  | mul (o a b : Nat) | mulAdd (o a b : Nat) | mulSub (o a b : Nat)
  | ntt (o a : Nat) | intt (o a : Nat) | copy (o a : Nat) | clear (o : Nat)
  | aut (buf : Poly F) (o a : Nat) (i : Int)

/-- Run one call. -/
def POp.run {F : Type} [Field F] (ev : Evaluator F) (s : Nat → Poly F) (op : POp F) :
    Go (Nat → Poly F) :=
  let put (o : Nat) (r : Go (Poly F)) : Go (Nat → Poly F) := do
    let q ← r
    pure (Function.update s o q)
  match op with
  | .add o a b => put o (ev.addTo (s o) (s a) (s b))
  | .sub o a b => put o (ev.subTo (s o) (s a) (s b))
  | .neg o a => put o (ev.negTo (s o) (s a))
  | .smul o a c => put o (ev.scalarMulTo (s o) (s a) c)
  | .smulAdd o a c => put o (ev.scalarMulAddTo (s o) (s a) c)
  | .smulSub o a c => put o (ev.scalarMulSubTo (s o) (s a) c)
  | .mul o a b => put o (ev.mulTo (s o) (s a) (s b))
  | .mulAdd o a b => put o (ev.mulAddTo (s o) (s a) (s b))
  | .mulSub o a b => put o (ev.mulSubTo (s o) (s a) (s b))
  | .ntt o a => put o (ev.nttTo (s o) (s a))
  | .intt o a => put o (ev.invNTTTo (s o) (s a))
  | .copy o a => put o ((s o).copyFrom (s a))
  | .clear o => put o (.ok (s o).clear)
  | .aut buf o a i => put o (ev.autTo buf (s o) (s a) i)

/-- What the call should do to the ring elements the registers stand for. -/
noncomputable def POp.meaning {F : Type} [Field F] (N : Nat) (g : Nat → F[X]) : POp F → (Nat → F[X])
  | .add o a b => Function.update g o (g a + g b)
  | .sub o a b => Function.update g o (g a - g b)
  | .neg o a => Function.update g o (-g a)
  | .smul o a c => Function.update g o (C c * g a)
  | .smulAdd o a c => Function.update g o (g o + C c * g a)
  | .smulSub o a c => Function.update g o (g o - C c * g a)
  | .mul o a b => Function.update g o (g a * g b)
  | .mulAdd o a b => Function.update g o (g o + g a * g b)
  | .mulSub o a b => Function.update g o (g o - g a * g b)
  | .ntt o a | .intt o a | .copy o a => Function.update g o (g a)
  | .clear o => Function.update g o 0
  | .aut _ o a i => Function.update g o ((g a).comp (X ^ (i % (2 * N)).toNat))

/-- The accumulating calls find their accumulator in the form of the operands; the pooled
scratch polynomial of an automorphism has the ring's rank; `Aut` only if the ring has it. -/
def POp.Proper {F : Type} (N : Nat) (hasAut : Bool) (s : Nat → Poly F) : POp F → Prop
  | .smulAdd o a _ | .smulSub o a _ => (s o).isNTT = (s a).isNTT
  | .mulAdd o a _ | .mulSub o a _ => (s o).isNTT = (s a).isNTT
  | .aut buf _ _ _ => hasAut = true ∧ buf.coeffs.length = N
  | _ => True

/-- A run of a sequence of calls none of which panics. -/
inductive Exec {F : Type} [Field F] (ev : Evaluator F) (N : Nat) (hasAut : Bool) :
    (Nat → Poly F) → List (POp F) → (Nat → Poly F) → Prop
  | nil (s) : Exec ev N hasAut s [] s
  | cons {s s1 s2 op ops} (hprop : op.Proper N hasAut s) (h1 : op.run ev s = .ok s1)
      (h2 : Exec ev N hasAut s1 ops s2) : Exec ev N hasAut s (op :: ops) s2

theorem sf_update {F : Type} [Field F] {N : Nat} {M : F[X]} {pt : Nat → F} {s : Nat → Poly F}
    {g : Nat → F[X]} (hs : ∀ r, StandsFor N M pt (s r) (g r)) {o : Nat} {q : Poly F} {f : F[X]}
    (hq : StandsFor N M pt q f) (r : Nat) :
    StandsFor N M pt (Function.update s o q r) (Function.update g o f r) := by
  by_cases h : r = o
  · subst h; simpa using hq
  · simp only [Function.update_of_ne h]; exact hs r

theorem step_truth {F : Type} [Field F] {K : Nat} {M : F[X]} {pt : Nat → F} {ev : Evaluator F}
    {hasAut : Bool} (h : GoodEv K M pt ev)
    (haut : hasAut = true → ∃ psi, psi ^ 2 ^ K = -1 ∧ M = X ^ 2 ^ K + 1 ∧
      pt = fun i => psi ^ (2 * rev K i + 1))
    {s s1 : Nat → Poly F} {g : Nat → F[X]} (hs : ∀ r, StandsFor (2 ^ K) M pt (s r) (g r))
    (op : POp F) (hprop : op.Proper (2 ^ K) hasAut s) (h1 : op.run ev s = .ok s1) (r : Nat) :
    StandsFor (2 ^ K) M pt (s1 r) (op.meaning (2 ^ K) g r) := by
  cases op with
  | add o a b =>
    obtain ⟨q, hq, e⟩ := bind_ok_inv h1; cases e
    exact sf_update hs (sf_add h (hs a) (hs b) hq) r
  | sub o a b =>
    obtain ⟨q, hq, e⟩ := bind_ok_inv h1; cases e
    exact sf_update hs (sf_sub h (hs a) (hs b) hq) r
  | neg o a =>
    obtain ⟨q, hq, e⟩ := bind_ok_inv h1; cases e
    exact sf_update hs (sf_neg h (hs a) hq) r
  | smul o a c =>
    obtain ⟨q, hq, e⟩ := bind_ok_inv h1; cases e
    exact sf_update hs (sf_smul h (hs a) hq) r
  | smulAdd o a c =>
    obtain ⟨q, hq, e⟩ := bind_ok_inv h1; cases e
    exact sf_update hs (sf_smulAdd h (hs o) (hs a) hprop hq) r
  | smulSub o a c =>
    obtain ⟨q, hq, e⟩ := bind_ok_inv h1; cases e
    exact sf_update hs (sf_smulSub h (hs o) (hs a) hprop hq) r
  | mul o a b =>
    obtain ⟨q, hq, e⟩ := bind_ok_inv h1; cases e
    exact sf_update hs (sf_mul h (hs a) (hs b) hq) r
  | mulAdd o a b =>
    obtain ⟨q, hq, e⟩ := bind_ok_inv h1; cases e
    have hno : (s o).isNTT = true := by
      have hq' := hq
      unfold Evaluator.mulAddTo at hq'
      obtain ⟨_, -, hq'⟩ := bind_ok_inv hq'
      split at hq'
      · cases hq'
      · next hn =>
        simp only [Bool.or_eq_true, Bool.not_eq_true', not_or, Bool.not_eq_false] at hn
        exact Eq.trans hprop hn.1
    exact sf_update hs (sf_mulAdd h (hs o) (hs a) (hs b) hno hq) r
  | mulSub o a b =>
    obtain ⟨q, hq, e⟩ := bind_ok_inv h1; cases e
    have hno : (s o).isNTT = true := by
      have hq' := hq
      unfold Evaluator.mulSubTo at hq'
      obtain ⟨_, -, hq'⟩ := bind_ok_inv hq'
      split at hq'
      · cases hq'
      · next hn =>
        simp only [Bool.or_eq_true, Bool.not_eq_true', not_or, Bool.not_eq_false] at hn
        exact Eq.trans hprop hn.1
    exact sf_update hs (sf_mulSub h (hs o) (hs a) (hs b) hno hq) r
  | ntt o a =>
    obtain ⟨q, hq, e⟩ := bind_ok_inv h1; cases e
    exact sf_update hs (sf_ntt h (hs a) hq).1 r
  | intt o a =>
    obtain ⟨q, hq, e⟩ := bind_ok_inv h1; cases e
    exact sf_update hs (sf_intt h (hs a) hq).1 r
  | copy o a =>
    obtain ⟨q, hq, e⟩ := bind_ok_inv h1; cases e
    exact sf_update hs (sf_copy h (hs o).1 (hs a) hq) r
  | clear o =>
    obtain ⟨q, hq, e⟩ := bind_ok_inv h1; cases e; cases hq
    exact sf_update hs (sf_clear h (hs o).1) r
  | aut buf o a i =>
    obtain ⟨q, hq, e⟩ := bind_ok_inv h1; cases e
    obtain ⟨psi, hpsi, rfl, rfl⟩ := haut hprop.1
    by_cases hi : i % 2 = 0
    · rw [aut_even buf (s o) (s a) i hi] at hq; cases hq
    · have hnn := Int.emod_nonneg i (b := 2 * 2 ^ K) (by positivity)
      obtain ⟨q', h2, -, h4⟩ := aut_total h hpsi buf (s o) (s a) (g a) i
        ((i % (2 * 2 ^ K : Int)).toNat) (by omega)
        (by rw [Int.toNat_of_nonneg hnn, Int.emod_emod_of_dvd _ dvd_rfl]) hprop.2 (hs o).1 (hs a)
      rw [h2] at hq; cases hq
      have := sf_update hs (o := o) h4 r
      unfold POp.meaning
      push_cast
      exact this

theorem exec_truth {F : Type} [Field F] {K : Nat} {M : F[X]} {pt : Nat → F} {ev : Evaluator F}
    {hasAut : Bool} (h : GoodEv K M pt ev)
    (haut : hasAut = true → ∃ psi, psi ^ 2 ^ K = -1 ∧ M = X ^ 2 ^ K + 1 ∧
      pt = fun i => psi ^ (2 * rev K i + 1))
    {s s' : Nat → Poly F} {ops : List (POp F)} (hx : Exec ev (2 ^ K) hasAut s ops s') :
    ∀ {g : Nat → F[X]}, (∀ r, StandsFor (2 ^ K) M pt (s r) (g r)) →
      ∀ r, StandsFor (2 ^ K) M pt (s' r) (ops.foldl (POp.meaning (2 ^ K)) g r) := by
  induction hx with
  | nil s => intro g hs; exact hs
  | cons hprop h1 _ ih => intro g hs; exact ih (step_truth h haut hs _ hprop h1)

/-- **C16**, the part that holds (cyclotomic ring).  There is one primitive root such that any
sequence of evaluator calls that does not panic, in which every accumulating call finds its
accumulator in the form of its operands, leaves every polynomial in truthful form for the ring
element it should stand for.  Missing: accumulating calls with an accumulator in the other
form, see `C16_refuted`. -/
theorem C16_partial (p : Nat) [Fact p.Prime] (K : Nat) (hK : 3 ≤ K) (ev : Evaluator (ZMod p))
    (hev : newCyclotomicEvaluator p (2 ^ K) = .ok ev) :
    ∃ psi : ZMod p, IsPrimitiveRoot psi (2 * 2 ^ K) ∧
      ∀ (s s' : Nat → Poly (ZMod p)) (ops : List (POp (ZMod p))) (g : Nat → (ZMod p)[X]),
        Exec ev (2 ^ K) true s ops s' →
        (∀ r, StandsFor (2 ^ K) (X ^ 2 ^ K + 1) (fun i => psi ^ (2 * rev K i + 1)) (s r) (g r)) →
        ∀ r, StandsFor (2 ^ K) (X ^ 2 ^ K + 1) (fun i => psi ^ (2 * rev K i + 1)) (s' r)
          (ops.foldl (POp.meaning (2 ^ K)) g r) := by
  obtain ⟨psi, h1, h2, h⟩ := cyclotomicEv_good p K hK ev hev
  exact ⟨psi, h1, fun s s' ops g hx hs => exec_truth h (fun _ => ⟨psi, h2, rfl, rfl⟩) hx hs⟩

/-- **C16**, the part that holds (cyclic ring, which has no automorphisms). -/
theorem C16_cyclic_partial (p : Nat) [Fact p.Prime] (K : Nat) (hK : 3 ≤ K)
    (ev : Evaluator (ZMod p)) (hev : newCyclicEvaluator p (2 ^ K) = .ok ev) :
    ∃ w : ZMod p, IsPrimitiveRoot w (2 ^ K) ∧
      ∀ (s s' : Nat → Poly (ZMod p)) (ops : List (POp (ZMod p))) (g : Nat → (ZMod p)[X]),
        Exec ev (2 ^ K) false s ops s' →
        (∀ r, StandsFor (2 ^ K) (X ^ 2 ^ K - 1) (fun i => w ^ rev K i) (s r) (g r)) →
        ∀ r, StandsFor (2 ^ K) (X ^ 2 ^ K - 1) (fun i => w ^ rev K i) (s' r)
          (ops.foldl (POp.meaning (2 ^ K)) g r) := by
  obtain ⟨w, h1, h⟩ := cyclicEv_good p K hK ev hev
  exact ⟨w, h1, fun s s' ops g hx hs => exec_truth h (by intro h; cases h) hx hs⟩

/-- Non-vacuity: a run that transforms a polynomial, squares it, and accumulates a product onto
the square. -/
example : ∃ ev s', @newCyclotomicEvaluator 17 ⟨by norm_num⟩ (2 ^ 3) = .ok ev ∧
    @Exec (ZMod 17) (@ZMod.instField 17 ⟨by norm_num⟩) ev (2 ^ 3) true
      (fun _ => ⟨[1, 2, 3, 4, 5, 6, 7, 8], false⟩)
      [.ntt 1 0, .mul 2 1 1, .mulAdd 2 1 2] s' := by
  have : Fact (Nat.Prime 17) := ⟨by norm_num⟩
  obtain ⟨ev, hev⟩ := ev17
  obtain ⟨psi, h1, h2, h⟩ := cyclotomicEv_good 17 3 le_rfl ev hev
  obtain ⟨w, w1, w2, -⟩ := h.nttTo_ok ⟨[1, 2, 3, 4, 5, 6, 7, 8], false⟩
    ⟨[1, 2, 3, 4, 5, 6, 7, 8], false⟩ rfl rfl rfl
  have hr := h.rank
  set s1 : Nat → Poly (ZMod 17) := Function.update (fun _ => ⟨[1, 2, 3, 4, 5, 6, 7, 8], false⟩) 1
    ⟨w, true⟩ with hs1
  set s2 : Nat → Poly (ZMod 17) := Function.update s1 2 ⟨List.zipWith (· * ·) w w, true⟩ with hs2
  have r1 : POp.run ev (fun _ => ⟨[1, 2, 3, 4, 5, 6, 7, 8], false⟩) (.ntt 1 0) = .ok s1 := by
    simp only [POp.run, w1, go_bind_ok]; rfl
  have r2 : POp.run ev s1 (.mul 2 1 1) = .ok s2 := by
    have e1 : s1 1 = ⟨w, true⟩ := by simp [hs1]
    have e2 : (s1 2).coeffs.length = ev.rank := by rw [hr]; rfl
    simp only [POp.run, Evaluator.mulTo, e1]
    rw [checkBinary_ok e2 (by rw [hr]; exact w2) (by rw [hr]; exact w2) rfl]
    rfl
  have e1 : s2 1 = ⟨w, true⟩ := by simp [hs2, hs1]
  have e2 : s2 2 = ⟨List.zipWith (· * ·) w w, true⟩ := by simp [hs2]
  have hl : (List.zipWith (· * ·) w w).length = ev.rank := by rw [hr]; simp [w2]
  have r3 : ∃ s3, POp.run ev s2 (.mulAdd 2 1 2) = .ok s3 := by
    simp only [POp.run, Evaluator.mulAddTo, e1, e2]
    have hc : checkBinary ev.rank ⟨List.zipWith (· * ·) w w, true⟩ ⟨w, true⟩
        ⟨List.zipWith (· * ·) w w, true⟩ = .ok () :=
      checkBinary_ok hl (by rw [hr]; exact w2) hl rfl
    rw [hc]
    exact ⟨_, rfl⟩
  obtain ⟨s3, r3⟩ := r3
  exact ⟨ev, s3, hev, .cons trivial r1 (.cons trivial r2 (.cons (by simp [POp.Proper, e1, e2]) r3 (.nil _)))⟩

/-- **C16** fails for accumulating calls: on every accepted ring, adding the product of two
NTT-form polynomials (each standing for 1) into an accumulator in coefficient form (standing
for 1) does not panic, sets the NTT flag, and holds something else than the NTT of 1 + 1 * 1. -/
theorem C16_refuted (p : Nat) [Fact p.Prime] (K : Nat) (hK : 3 ≤ K) (ev : Evaluator (ZMod p))
    (hev : newCyclotomicEvaluator p (2 ^ K) = .ok ev) :
    ∃ (pOut a q : Poly (ZMod p)), ∀ pt : Nat → ZMod p,
      StandsFor (2 ^ K) (X ^ 2 ^ K + 1) pt pOut 1 ∧ StandsFor (2 ^ K) (X ^ 2 ^ K + 1) pt a 1 ∧
      ev.mulAddTo pOut a a = .ok q ∧ q.isNTT = true ∧
      ¬ StandsFor (2 ^ K) (X ^ 2 ^ K + 1) pt q (1 + 1 * 1) := by
  obtain ⟨psi, -, -, h⟩ := cyclotomicEv_good p K hK ev hev
  have h1 : 1 < 2 ^ K := Nat.one_lt_two_pow (by omega)
  set pOut : Poly (ZMod p) := ⟨1 :: List.replicate (2 ^ K - 1) 0, false⟩ with hO
  set a : Poly (ZMod p) := ⟨List.replicate (2 ^ K) 1, true⟩ with hA
  have hlO : pOut.coeffs.length = 2 ^ K := by simp [hO]; omega
  have hlA : a.coeffs.length = 2 ^ K := by simp [hA]
  refine ⟨pOut, a, ⟨List.zipWith (· + ·) pOut.coeffs (List.zipWith (· * ·) a.coeffs a.coeffs), true⟩,
    fun pt => ⟨⟨hlO, ?_⟩, ⟨hlA, ?_⟩, ?_, rfl, ?_⟩⟩
  · have : listPoly pOut.coeffs = 1 := by
      ext n
      rw [listPoly_coeff, coeff_one]
      cases n with
      | zero => simp [hO]
      | succ n =>
        simp only [hO, List.getD_cons_succ]
        rw [List.getD_eq_getElem?_getD, List.getElem?_replicate]
        split <;> simp
    show (if false = true then _ else _)
    rw [if_neg (by simp), this, sub_self]; exact dvd_zero _
  · intro i hi
    simp [hA, hi]
  · unfold Evaluator.mulAddTo
    rw [checkBinary_ok (by rw [hlO, h.rank]) (by rw [hlA, h.rank]) (by rw [hlA, h.rank]) rfl]
    rfl
  · rintro ⟨-, hs⟩
    have := hs 1 h1
    have h2 : (1 : Nat) < 2 ^ K - 1 + 1 := by omega
    simp only [hO, hA, List.getElem?_zipWith, List.getElem?_replicate, if_pos h1,
      List.getElem?_cons_succ, if_pos (show 0 < 2 ^ K - 1 by omega)] at this
    simp at this

/-! ## C17, C18: automorphisms -/

/-- **C17**.  One primitive root serves every polynomial, in either form, every odd index `i`
(negative or large included), every scratch and output buffer of the right size: `AutTo`
succeeds, keeps the form, and the result stands for `f(X^e)` where `e` is any natural number
congruent to `i` modulo `2N`. -/
theorem C17_aut (p : Nat) [Fact p.Prime] (K : Nat) (hK : 3 ≤ K) (ev : Evaluator (ZMod p))
    (hev : newCyclotomicEvaluator p (2 ^ K) = .ok ev) :
    ∃ psi : ZMod p, IsPrimitiveRoot psi (2 * 2 ^ K) ∧
      ∀ (buf pOut x : Poly (ZMod p)) (f : (ZMod p)[X]) (i : Int) (e : Nat), i % 2 = 1 →
        (e : Int) % (2 * 2 ^ K) = i % (2 * 2 ^ K) →
        buf.coeffs.length = 2 ^ K → pOut.coeffs.length = 2 ^ K →
        StandsFor (2 ^ K) (X ^ 2 ^ K + 1) (fun i => psi ^ (2 * rev K i + 1)) x f →
        ∃ q, ev.autTo buf pOut x i = .ok q ∧ q.isNTT = x.isNTT ∧
          StandsFor (2 ^ K) (X ^ 2 ^ K + 1) (fun i => psi ^ (2 * rev K i + 1)) q (f.comp (X ^ e)) := by
  obtain ⟨psi, h1, h2, h⟩ := cyclotomicEv_good p K hK ev hev
  exact ⟨psi, h1, fun buf pOut x f i e hi he hb ho hx =>
    aut_total h h2 buf pOut x f i e hi he hb ho hx⟩

/-- **C17**, coefficient form spelled out: the output coefficients are those of `v(X^e)` modulo
`X^N + 1`. -/
theorem C17_aut_coefficients (p : Nat) [Fact p.Prime] (K : Nat) (hK : 3 ≤ K)
    (ev : Evaluator (ZMod p)) (hev : newCyclotomicEvaluator p (2 ^ K) = .ok ev)
    (buf : Poly (ZMod p)) (hb : buf.coeffs.length = 2 ^ K) (v : List (ZMod p))
    (hv : v.length = 2 ^ K) (i : Int) (hi : i % 2 = 1) (e : Nat)
    (he : (e : Int) % (2 * 2 ^ K) = i % (2 * 2 ^ K)) :
    ∃ w, ev.aut buf ⟨v, false⟩ i = .ok ⟨w, false⟩ ∧ w.length = 2 ^ K ∧
      X ^ 2 ^ K + 1 ∣ (listPoly v).comp (X ^ e) - listPoly w := by
  obtain ⟨psi, h1, h2, h⟩ := cyclotomicEv_good p K hK ev hev
  obtain ⟨⟨w, n⟩, q1, q2, q3⟩ := aut_total h h2 buf (newPoly ev.rank false) ⟨v, false⟩ (listPoly v) i e hi he
    hb (by simp [newPoly, h.rank]) ⟨hv, by simp⟩
  simp only at q2; subst q2
  exact ⟨w, q1, q3.1, by simpa using q3.2⟩

/-- **C17**: transforming commutes with the automorphism, whatever the scratch buffers. -/
theorem C17_aut_commutes_with_NTT (p : Nat) [Fact p.Prime] (K : Nat) (hK : 3 ≤ K)
    (ev : Evaluator (ZMod p)) (hev : newCyclotomicEvaluator p (2 ^ K) = .ok ev)
    (buf buf' : Poly (ZMod p)) (hb : buf.coeffs.length = 2 ^ K) (hb' : buf'.coeffs.length = 2 ^ K)
    (v : List (ZMod p)) (hv : v.length = 2 ^ K) (i : Int) (hi : i % 2 = 1) :
    ∃ q, (do let x ← ev.aut buf ⟨v, false⟩ i; ev.toNTT x) = .ok q ∧
      (do let x ← ev.toNTT ⟨v, false⟩; ev.aut buf' x i) = .ok q := by
  obtain ⟨psi, h1, h2, h⟩ := cyclotomicEv_good p K hK ev hev
  have hl : ∀ n, (newPoly ev.rank n : Poly (ZMod p)).coeffs.length = 2 ^ K := by
    intro n; simp [newPoly, h.rank]
  have hnn := Int.emod_nonneg i (b := 2 * 2 ^ K) (by positivity)
  have he : (((i % (2 * 2 ^ K : Int)).toNat : Nat) : Int) % (2 * 2 ^ K) = i % (2 * 2 ^ K) := by
    rw [Int.toNat_of_nonneg hnn, Int.emod_emod_of_dvd _ dvd_rfl]
  have sv : StandsFor (2 ^ K) (X ^ 2 ^ K + 1) (fun i => psi ^ (2 * rev K i + 1)) ⟨v, false⟩
    (listPoly v) := ⟨hv, by simp⟩
  obtain ⟨⟨a, n⟩, a1, a2, a3⟩ := aut_total h h2 buf (newPoly ev.rank false) ⟨v, false⟩ _ i _ hi he hb (hl _) sv
  simp only at a2; subst a2
  obtain ⟨b, b1, b2, -⟩ := h.nttTo_ok (newPoly ev.rank true) ⟨a, false⟩ (hl _) a3.1 rfl
  obtain ⟨c, c1, c2, -⟩ := h.nttTo_ok (newPoly ev.rank true) ⟨v, false⟩ (hl _) hv rfl
  have sc := (sf_ntt h sv c1).1
  obtain ⟨d, d1, d2, d3⟩ := aut_total h h2 buf' (newPoly ev.rank true) ⟨c, true⟩ _ i _ hi he hb' (hl _) sc
  have sb := (sf_ntt h a3 b1).1
  have := sf_unique h sb d3 d2.symm
  subst this
  refine ⟨⟨b, true⟩, ?_, ?_⟩
  · unfold Evaluator.aut Evaluator.toNTT
    rw [a1, go_bind_ok, b1]
  · unfold Evaluator.aut Evaluator.toNTT
    rw [c1, go_bind_ok, d1]

/-- **C17**: even indices panic. -/
theorem C17_even_panics {F : Type} [Field F] (ev : Evaluator F) (buf x : Poly F) (i : Int)
    (hi : i % 2 = 0) : ev.aut buf x i = .error .panic := aut_even buf _ x i hi

/-- **C18**.  In either form, `Aut` by `a` then by `b` is `Aut` by `a*b`, and is the identity if
`a*b` is 1 modulo `2N`. -/
theorem C18_compose (p : Nat) [Fact p.Prime] (K : Nat) (hK : 3 ≤ K)
    (ev : Evaluator (ZMod p)) (hev : newCyclotomicEvaluator p (2 ^ K) = .ok ev)
    (buf buf' buf'' : Poly (ZMod p)) (hb : buf.coeffs.length = 2 ^ K)
    (hb' : buf'.coeffs.length = 2 ^ K) (hb'' : buf''.coeffs.length = 2 ^ K)
    (x : Poly (ZMod p)) (hx : x.coeffs.length = 2 ^ K) (a b : Int) (ha : a % 2 = 1) (hb2 : b % 2 = 1) :
    (∃ q, (do let y ← ev.aut buf x a; ev.aut buf' y b) = .ok q ∧ ev.aut buf'' x (a * b) = .ok q) ∧
    (a * b % (2 * 2 ^ K) = 1 → (do let y ← ev.aut buf x a; ev.aut buf' y b) = .ok x) := by
  obtain ⟨psi, h1, h2, h⟩ := cyclotomicEv_good p K hK ev hev
  have hl : ∀ n, (newPoly ev.rank n : Poly (ZMod p)).coeffs.length = 2 ^ K := by
    intro n; simp [newPoly, h.rank]
  have he : ∀ i : Int, (((i % (2 * 2 ^ K : Int)).toNat : Nat) : Int) % (2 * 2 ^ K) = i % (2 * 2 ^ K) := by
    intro i
    have hnn := Int.emod_nonneg i (b := 2 * 2 ^ K) (by positivity)
    rw [Int.toNat_of_nonneg hnn, Int.emod_emod_of_dvd _ dvd_rfl]
  obtain ⟨f, sf⟩ := sf_exists h x hx
  obtain ⟨y, y1, y2, y3⟩ := aut_total h h2 buf (newPoly ev.rank x.isNTT) x _ a _ ha (he a) hb (hl _) sf
  obtain ⟨z, z1, z2, z3⟩ := aut_total h h2 buf' (newPoly ev.rank y.isNTT) y _ b _ hb2 (he b) hb' (hl _) y3
  have hab : a * b % 2 = 1 := by rw [Int.mul_emod, ha, hb2]; rfl
  set ea := (a % (2 * 2 ^ K : Int)).toNat
  set eb := (b % (2 * 2 ^ K : Int)).toNat
  have heab : ((eb * ea : Nat) : Int) % (2 * 2 ^ K) = a * b % (2 * 2 ^ K) := by
    push_cast
    rw [Int.mul_emod, he a, he b, ← Int.mul_emod, mul_comm]
  have hcomp : (f.comp (X ^ ea)).comp (X ^ eb) = f.comp (X ^ (eb * ea)) := by
    rw [comp_assoc, X_pow_comp, ← pow_mul]
  rw [hcomp] at z3
  have hrun : (do let y ← ev.aut buf x a; ev.aut buf' y b) = Except.ok z := by
    unfold Evaluator.aut
    rw [y1, go_bind_ok, z1]
  rw [hrun]
  constructor
  · obtain ⟨w, w1, w2, w3⟩ := aut_total h h2 buf'' (newPoly ev.rank x.isNTT) x _ (a * b) (eb * ea) hab heab
      hb'' (hl _) sf
    have := sf_unique h z3 w3 (by rw [z2, y2, w2])
    subst this
    exact ⟨z, rfl, w1⟩
  · intro h1'
    obtain ⟨w, w1, w2, w3⟩ := aut_total h h2 buf'' (newPoly ev.rank x.isNTT) x _ (a * b) 1 hab
      (by rw [h1']; push_cast; exact Int.emod_eq_of_lt (by omega) (by have := Nat.one_le_two_pow (n := K); norm_cast; omega))
      hb'' (hl _) sf
    obtain ⟨w', w1', w2', w3'⟩ := aut_total h h2 buf'' (newPoly ev.rank x.isNTT) x _ (a * b) (eb * ea) hab heab
      hb'' (hl _) sf
    rw [w1] at w1'; cases w1'
    have e1 := sf_unique h z3 w3' (by rw [z2, y2, w2])
    rw [pow_one, comp_X] at w3
    have e2 := sf_unique h w3 sf w2
    rw [e1, e2]

/-- Non-vacuity: indices 3 and 11 are inverse modulo 16, and -5 is odd. -/
example : ((3 : Int) * 11 % (2 * 2 ^ 3) = 1) ∧ (3 : Int) % 2 = 1 ∧ (11 : Int) % 2 = 1 ∧
    (-5 : Int) % 2 = 1 ∧ ∃ ev, @newCyclotomicEvaluator 17 ⟨by norm_num⟩ (2 ^ 3) = .ok ev :=
  ⟨by norm_num, by norm_num, by norm_num, by norm_num, ev17⟩

end Ringo
