import Verif.Proof.KeyLaw
import Mathlib.Tactic.NormNum.Prime

/-!
# C98: the commitment key is uniform
-/

namespace Ringo

open MeasureTheory

/-- **C02**, law: on independent uniform words `SampleN(n)` returns with probability one, and returns each number
below `n` with probability `1/n`. -/
theorem C02_law {n : ℕ} (h1 : 1 ≤ n) (h2 : n < 2 ^ 64) :
    (∀ᵐ ω ∂stream word64, ∃ r, sampleNAt ω 0 n = .ok r) ∧
    ∀ r < n, stream word64 {ω | ∃ k, sampleNAt ω 0 n = .ok (r, k)} = (n : ENNReal)⁻¹ := by
  refine ⟨(sampleNAt_draws h1 h2).ends, fun r hr => ?_⟩
  have := (sampleNAt_draws h1 h2).law r hr Set.univ MeasurableSet.univ
  simpa using this

/-- A die. -/
example : stream word64 {ω | ∃ k, sampleNAt ω 0 6 = .ok (4, k)} = (6 : ENNReal)⁻¹ :=
  (C02_law (n := 6) (by norm_num) (by norm_num)).2 4 (by norm_num)

/-- **C98.**  If the words of the generator are independent and uniform, `NewCommitKey` returns with
probability one, and every key of the right dimensions with reduced residues is returned with the same
probability: one over the number of such keys. -/
theorem C98 {P : LimbPar} (hP : P.ringQOut.n = P.ringQ.n)
    (hq : ∀ q ∈ P.ringQ.moduli ++ P.ringQOut.moduli, 1 ≤ q ∧ q < 2 ^ 64) (crs : List (BitVec 8)) :
    (∀ᵐ ω ∂stream word64, ∃ K, newCommitKey P (fun _ => ω) crs = .ok K) ∧
    (∀ ω K, newCommitKey P (fun _ => ω) crs = .ok K → K.crs = crs ∧
      MatOf P.inRank P.rows P.ringQ.Reduced K.inn ∧ MatOf P.inRank P.mlweRank P.ringQ.Reduced K.mlwe ∧
      MatOf P.outRank P.dcmpLen P.ringQOut.Reduced K.out) ∧
    ∀ K : LimbKey, K.crs = crs → MatOf P.inRank P.rows P.ringQ.Reduced K.inn →
      MatOf P.inRank P.mlweRank P.ringQ.Reduced K.mlwe → MatOf P.outRank P.dcmpLen P.ringQOut.Reduced K.out →
      stream word64 {ω | newCommitKey P (fun _ => ω) crs = .ok K} =
        ((P.ringQ.moduli.prod ^ (P.ringQ.n * (P.rows + P.mlweRank) * P.inRank) *
          P.ringQOut.moduli.prod ^ (P.ringQ.n * P.dcmpLen * P.outRank) : ℕ) : ENNReal)⁻¹ := by
  have hq1 : ∀ q ∈ P.ringQ.moduli, 1 ≤ q ∧ q < 2 ^ 64 := fun q h => hq q (List.mem_append_left _ h)
  have hq2 : ∀ q ∈ P.ringQOut.moduli, 1 ≤ q ∧ q < 2 ^ 64 := fun q h => hq q (List.mem_append_right _ h)
  have d1 := keyMat_draws hq1 P.inRank P.rows
  have d2 := keyMat_draws hq1 P.inRank P.mlweRank
  have d3 := keyMat_draws hq2 P.outRank P.dcmpLen
  rw [hP] at d3
  have d23 : ∀ A : List (List LimbPoly), Draws (fun w pos => keyMat w P.ringQ P.ringQ.n P.inRank P.mlweRank pos >>=
      fun r => keyMat w P.ringQOut P.ringQ.n P.outRank P.dcmpLen r.2 >>= fun r' =>
        Except.ok ((⟨crs, A, r.1, r'.1⟩ : LimbKey), r'.2))
      {K | K.crs = crs ∧ K.inn = A ∧ MatOf P.inRank P.mlweRank P.ringQ.Reduced K.mlwe ∧
        MatOf P.outRank P.dcmpLen P.ringQOut.Reduced K.out}
      (P.ringQ.moduli.prod ^ (P.ringQ.n * P.mlweRank * P.inRank) *
        P.ringQOut.moduli.prod ^ (P.ringQ.n * P.dcmpLen * P.outRank)) := by
    intro A
    refine d2.bind (d := fun B w pos => keyMat w P.ringQOut P.ringQ.n P.outRank P.dcmpLen pos >>= fun r' =>
        Except.ok ((⟨crs, A, B, r'.1⟩ : LimbKey), r'.2))
      (S2 := fun B => {K | K.crs = crs ∧ K.inn = A ∧ K.mlwe = B ∧ MatOf P.outRank P.dcmpLen P.ringQOut.Reduced K.out})
      (fun B _ => d3.map (fun C => (⟨crs, A, B, C⟩ : LimbKey)) (fun C _ C' _ h => congrArg LimbKey.out h) _ ?_) _
      ?_ ?_ ?_
    · rintro ⟨k1, k2, k3, k4⟩
      constructor
      · rintro ⟨rfl, rfl, rfl, h⟩
        exact ⟨k4, h, rfl⟩
      · rintro ⟨C, h, h2⟩
        cases h2
        exact ⟨rfl, rfl, rfl, h⟩
    · rintro B hB K ⟨h1, h2, rfl, h4⟩
      exact ⟨h1, h2, hB, h4⟩
    · rintro K ⟨h1, h2, h3, h4⟩
      exact ⟨K.mlwe, h3, h1, h2, rfl, h4⟩
    · rintro B - B' - K ⟨-, -, h, -⟩ ⟨-, -, h', -⟩
      exact h.symm.trans h'
  have d := d1.bind (d := fun A w pos => keyMat w P.ringQ P.ringQ.n P.inRank P.mlweRank pos >>=
      fun r => keyMat w P.ringQOut P.ringQ.n P.outRank P.dcmpLen r.2 >>= fun r' =>
        Except.ok ((⟨crs, A, r.1, r'.1⟩ : LimbKey), r'.2)) (fun A _ => d23 A)
      {K | K.crs = crs ∧ MatOf P.inRank P.rows P.ringQ.Reduced K.inn ∧
        MatOf P.inRank P.mlweRank P.ringQ.Reduced K.mlwe ∧ MatOf P.outRank P.dcmpLen P.ringQOut.Reduced K.out}
      (fun A hA K ⟨h1, h2, h3, h4⟩ => ⟨h1, by rw [h2]; exact hA, h3, h4⟩)
      (fun K ⟨h1, h2, h3, h4⟩ => ⟨K.inn, h2, h1, rfl, h3, h4⟩)
      (fun A _ A' _ K ⟨_, h, _⟩ ⟨_, h', _⟩ => h.symm.trans h')
  have hkey : ∀ ω, newCommitKey P (fun _ => ω) crs =
      ((keyMat ω P.ringQ P.ringQ.n P.inRank P.rows 0 >>= fun r1 =>
        keyMat ω P.ringQ P.ringQ.n P.inRank P.mlweRank r1.2 >>= fun r =>
        keyMat ω P.ringQOut P.ringQ.n P.outRank P.dcmpLen r.2 >>= fun r' =>
        Except.ok ((⟨crs, r1.1, r.1, r'.1⟩ : LimbKey), r'.2)) : Go (LimbKey × ℕ)).map fun (r : LimbKey × ℕ) => r.1 := by
    intro ω
    unfold newCommitKey
    rw [hP]
    rcases keyMat ω P.ringQ P.ringQ.n P.inRank P.rows 0 with e | ⟨A, k1⟩
    · rfl
    rw [go_bind_ok, go_bind_ok]
    dsimp only
    rcases keyMat ω P.ringQ P.ringQ.n P.inRank P.mlweRank k1 with e | ⟨B, k2⟩
    · rfl
    rw [go_bind_ok, go_bind_ok]
    dsimp only
    rcases keyMat ω P.ringQOut P.ringQ.n P.outRank P.dcmpLen k2 with e | ⟨C, k3⟩
    · rfl
    · rfl
  have hiff : ∀ ω K, newCommitKey P (fun _ => ω) crs = .ok K ↔ ∃ k,
      (keyMat ω P.ringQ P.ringQ.n P.inRank P.rows 0 >>= fun r1 =>
        keyMat ω P.ringQ P.ringQ.n P.inRank P.mlweRank r1.2 >>= fun r =>
        keyMat ω P.ringQOut P.ringQ.n P.outRank P.dcmpLen r.2 >>= fun r' =>
        Except.ok ((⟨crs, r1.1, r.1, r'.1⟩ : LimbKey), r'.2)) = .ok (K, k) := by
    intro ω K
    rw [hkey]
    generalize (keyMat ω P.ringQ P.ringQ.n P.inRank P.rows 0 >>= fun r1 =>
        keyMat ω P.ringQ P.ringQ.n P.inRank P.mlweRank r1.2 >>= fun r =>
        keyMat ω P.ringQOut P.ringQ.n P.outRank P.dcmpLen r.2 >>= fun r' =>
        Except.ok ((⟨crs, r1.1, r.1, r'.1⟩ : LimbKey), r'.2)) = g
    rcases g with e | ⟨K', k⟩
    · constructor
      · intro h; cases h
      · rintro ⟨_, h⟩; cases h
    · constructor
      · intro h
        have h := Except.ok.inj h
        dsimp only at h
        exact ⟨k, by rw [h]⟩
      · rintro ⟨k', h⟩
        have h := Except.ok.inj h
        rw [Prod.mk.injEq] at h
        rw [h.1]; rfl
  refine ⟨?_, ?_, ?_⟩
  · filter_upwards [d.ends] with ω h
    obtain ⟨⟨K, k⟩, h⟩ := h
    exact ⟨K, (hiff ω K).mpr ⟨k, h⟩⟩
  · intro ω K h
    obtain ⟨k, h⟩ := (hiff ω K).mp h
    exact d.ran ω 0 (K, k) h
  · intro K h1 h2 h3 h4
    have := d.law K ⟨h1, h2, h3, h4⟩ Set.univ MeasurableSet.univ
    rw [measure_univ, mul_one] at this
    simp only [Set.mem_univ, and_true] at this
    simp only [hiff]
    rw [this]
    congr 2
    rw [← mul_assoc, ← pow_add]
    congr 2
    ring

/-- A case: two primes inside, one outside, degree four. -/
example (crs : List (BitVec 8)) : ∀ᵐ ω ∂stream word64, ∃ K,
    newCommitKey ⟨4, 2, 2, 2, 1, 1, 1, 3, ⟨[12289, 40961], 4⟩, ⟨[40961], 4⟩⟩ (fun _ => ω) crs = .ok K :=
  (C98 (P := ⟨4, 2, 2, 2, 1, 1, 1, 3, ⟨[12289, 40961], 4⟩, ⟨[40961], 4⟩⟩) rfl (by
    intro q hq
    simp only [List.cons_append, List.nil_append, List.mem_cons, List.not_mem_nil, or_false] at hq
    rcases hq with rfl | rfl | rfl <;> norm_num) crs).1

end Ringo
