import Verif.Proof.JEnvOf
import Verif.Spec.JEnvOf
import Verif.Props.JProto

/-! # Parameters of `NewParameters` meet the hypotheses of the theorems about the protocol -/

namespace Ringo

open Real Finset

/-! ## Keys -/

theorem forRange_ok_ind {σ : Type} {f : σ → Nat → Go σ} {n : Nat} {s s' : σ} (I : Nat → σ → Prop) (h0 : I 0 s)
    (hstep : ∀ i s s', I i s → f s i = .ok s' → I (i + 1) s') (h : forRange 0 n 1 s f = .ok s') : I n s' := by
  have key : ∀ m a s, I a s → (List.range' a m).foldlM f s = .ok s' → I (a + m) s' := by
    intro m
    induction m with
    | zero => intro a s ha h; injection h with h; rw [← h]; exact ha
    | succ m ih =>
      intro a s ha h
      rw [List.range'_succ, List.foldlM_cons] at h
      obtain ⟨s1, h1, h2⟩ := bind_ok_inv h
      have := ih (a + 1) s1 (hstep a s s1 ha h1) h2
      rwa [show a + (m + 1) = a + 1 + m by omega]
  have := key n 0 s h0 (by unfold forRange at h; simpa using h)
  rwa [Nat.zero_add] at this

theorem keyMat_len {w : Nat → Nat} {R : LimbRing} {N a b pos : Nat} {M : List (List LimbPoly)} {pos' : Nat}
    (h : keyMat w R N a b pos = .ok (M, pos')) : M.length = a ∧ ∀ r ∈ M, r.length = b := by
  refine forRange_ok_ind (s' := (M, pos')) (fun i s => s.1.length = i ∧ ∀ r ∈ s.1, r.length = b)
    ⟨rfl, by simp⟩ ?_ h
  rintro i ⟨l, q⟩ ⟨l', q'⟩ ⟨h1, h2⟩ h3
  obtain ⟨⟨row, q1⟩, h4, h5⟩ := bind_ok_inv h3
  injection h5 with h5
  injection h5 with h5 h6
  have h7 : row.length = b := by
    refine forRange_ok_ind (s' := (row, q1)) (fun i s => s.1.length = i) rfl ?_ h4
    rintro j ⟨r, t⟩ ⟨r', t'⟩ hr h8
    obtain ⟨⟨x, t1⟩, h9, h10⟩ := bind_ok_inv h8
    injection h10 with h10
    injection h10 with h10 h11
    show r'.length = j + 1
    rw [← h10, List.length_append, hr]; rfl
  constructor
  · show l'.length = i + 1
    rw [← h5, List.length_append, h1]; rfl
  · intro r hr
    rw [← h5] at hr
    rcases List.mem_append.mp hr with hr | hr
    · exact h2 r hr
    · rw [List.mem_singleton.mp hr]; exact h7

theorem newCommitKey_len {P : LimbPar} {w : List (BitVec 8) → Nat → Nat} {crs : List (BitVec 8)} {K : LimbKey}
    (h : newCommitKey P w crs = .ok K) :
    (K.inn.length = P.inRank ∧ ∀ r ∈ K.inn, r.length = P.rows) ∧
    (K.mlwe.length = P.inRank ∧ ∀ r ∈ K.mlwe, r.length = P.mlweRank) ∧
    (K.out.length = P.outRank ∧ ∀ r ∈ K.out, r.length = P.dcmpLen) := by
  unfold newCommitKey at h
  obtain ⟨⟨a, q1⟩, h1, h⟩ := bind_ok_inv h
  obtain ⟨⟨b, q2⟩, h2, h⟩ := bind_ok_inv h
  obtain ⟨⟨c, q3⟩, h3, h⟩ := bind_ok_inv h
  injection h with h
  rw [← h]
  exact ⟨keyMat_len h1, keyMat_len h2, keyMat_len h3⟩

/-- A norm bound against half the modulus. -/
theorem half_ge {x : ℝ} {Q : Nat} {f : ℚ} (hx : 4 * x ≤ (1 + tol) * Q) (hQ : 16 ≤ Q)
    (hf : |f - ((Q - 1) / 2 : ℕ)| ≤ ((Q - 1) / 2 : ℕ) / 2 ^ 53) : x ≤ (f : ℝ) := by
  have h1 : (Q : ℝ) - 2 ≤ 2 * ((Q - 1) / 2 : ℕ) := by
    have : Q ≤ 2 * ((Q - 1) / 2) + 2 := by omega
    have : (Q : ℝ) ≤ 2 * ((Q - 1) / 2 : ℕ) + 2 := by exact_mod_cast this
    linarith
  have hQ' : (16 : ℝ) ≤ Q := by exact_mod_cast hQ
  have h2 : ((((Q - 1) / 2 : ℕ) : ℚ) : ℝ) - ((((Q - 1) / 2 : ℕ) : ℚ) : ℝ) / 2 ^ 53 ≤ (f : ℝ) := by
    have := (abs_le.mp hf).1
    have h3 : (((Q - 1) / 2 : ℕ) : ℚ) - (((Q - 1) / 2 : ℕ) : ℚ) / 2 ^ 53 ≤ f := by linarith
    exact_mod_cast h3
  rw [Rat.cast_natCast] at h2
  unfold tol at hx
  norm_num at hx h2 ⊢
  linarith

section
variable {p : Nat} {T T' : Type} [AddCommGroup T] [AddCommGroup T']

/-- **C107.** Parameters that `NewParameters` returns, a key of `NewCommitKey`, and provers and verifiers for
them meet the hypotheses of the theorems about the protocol, if the exponent of the encoding is neither one
nor above 64. -/
theorem C107_good {F : Flt} (hF : F.Ok) {gen : ℤ → ℤ → Option (List Nat)} (hg : GenOk gen)
    {targetN batch : Nat} (hp : 3 ≤ p) (ht : targetN ≤ 2 ^ 47) (hb : batch ≤ 2 ^ 53) {P : RParams}
    (h : F.newParameters gen targetN batch p = .ok P) (hP : P ≠ RParams.zero) (h2 : 2 ≤ P.shape.exp)
    (h64 : P.shape.exp ≤ 64) (E : JEnv p T T') (hE : E.From P) :
    E.Good ∧ E.par.batch = batch ∧ targetN ≤ E.par.mat.rank := by
  obtain ⟨ht1, hb1, e, he, nn, mu, r, Q, Q', hit, hfin⟩ := newParameters_from hF hg hp ht hb h hP
  obtain ⟨hb2, he2⟩ := ecd_base_exp hp he
  obtain ⟨c1, c2, -, c4⟩ := C61_result p hp e he
  obtain ⟨hW, -⟩ := fvars hF c2 ht1 ht hb hb2 hit.one hit.le
  have hshape := fshape hF c2 hW
  have hsh : P.shape = { F.shapeOf (F.npVars targetN batch e nn) batch e with
      ringQ := some nn, ringQOut := some nn } := by rw [hfin]; rfl
  rw [hshape] at hsh
  dsimp only at hsh
  have s1 : P.shape.base = e.base := by rw [hsh]
  have s2 : P.shape.exp = e.exp := by rw [hsh]
  have s3 : P.shape.slots = max e.exp 256 / e.exp := by rw [hsh]
  have s4 : P.shape.cols = nn := by rw [hsh]
  have s5 : (⟨P.shape.base, P.shape.exp⟩ : EcdParams) = e := by rw [s1, s2]
  obtain ⟨S, k1, k2, k3, k4, k5⟩ := (C106_sound hF hg hp ht hb h).resolve_left hP
  have hchal : 1 ≤ challengeBound e := by
    rw [s2] at h2 h64
    exact challengeBound_pos hb2 h2 (by omega)
  obtain ⟨hpr, hpr'⟩ := iter_primes hF hg c2 ht1 ht hb1 hb hb2 hchal hit
  obtain ⟨hp1, hp2⟩ := iter_prod hF hg c2 ht1 ht hb1 hb hb2 hit
  obtain ⟨limbs, resNm, dcmpNm, hl, hres, hdc, hpar⟩ := hE.par
  obtain ⟨w, crs, K, f, f', hK, hkey⟩ := hE.key
  obtain ⟨⟨m1, m2⟩, ⟨m3, m4⟩, ⟨m5, m6⟩⟩ := newCommitKey_len hK
  have hQ : E.ringQ.qs = Q := by
    have := hE.qs
    rw [hfin] at this
    exact (Option.some.inj this).symm
  have hQ' : E.ringQ'.qs = Q' := by
    have := hE.qs'
    rw [hfin] at this
    exact (Option.some.inj this).symm
  obtain ⟨A, A', q, q', e1, e2, -, -, -, -, -, -, -, -, p1, r1, p2, r2, -⟩ := S.rings
  rw [hE.qs] at e1
  rw [hE.qs'] at e2
  injection e1 with e1
  injection e2 with e2
  rw [← e1] at r1
  rw [← e2] at r2
  obtain ⟨i1, -⟩ := S.inRank
  obtain ⟨o1, -⟩ := S.outRank
  have hslots := slots_pos he2
  have hdeg : max e.exp 256 = max e.exp 256 / e.exp * e.exp := by
    obtain ⟨i, hi⟩ := c2
    obtain ⟨j, -, hj⟩ := max_pow_eq i
    rw [hi, hj, Nat.mul_div_cancel_left _ (Nat.two_pow_pos i), mul_comm]
  refine ⟨?_, by rw [hpar]; exact k1, by rw [hpar]; exact k5⟩
  constructor
  · rw [hpar]
    unfold RParams.jpar
    refine ⟨?_, ?_, ?_, ?_, ?_, ?_, hl⟩ <;> dsimp only
    · rw [s1]; omega
    · rw [s1]; exact c4
    · rw [s2]; exact he2
    · rw [k2]; omega
    · rw [s3]; exact hslots
    · rw [s2, s3]; exact hdeg
  · rw [hpar]
    exact ⟨k3, by show 1 ≤ P.shape.cols; rw [s4]; exact hit.one, by show 1 ≤ P.shape.slots; rw [s3]; exact hslots, k4⟩
  · rw [hpar]; rfl
  · rw [hpar]; exact hE.deg
  · rw [hpar]; exact hE.deg'
  · rw [hpar]; show 1 ≤ challengeBound ⟨P.shape.base, P.shape.exp⟩; rw [s5]; exact hchal
  · rw [hpar, hQ]; show ∀ q ∈ Q, challengeBound ⟨P.shape.base, P.shape.exp⟩ + 1 < q; rw [s5]; exact hpr
  · rw [hpar, hQ']
    show 1 < P.shape.batch → ∀ q ∈ Q', challengeBound ⟨P.shape.base, P.shape.exp⟩ + 1 < q
    rw [s5, k1]; exact hpr'
  · exact hE.xof
  · rw [hpar]; show 1 ≤ P.shape.batch; rw [k1]; exact hb1
  · rw [hpar]; show 1 ≤ P.inRank.toNat; omega
  · rw [hpar]; show 1 ≤ P.outRank.toNat; omega
  · rw [hpar]
    show P.dcmpLen.toNat = (P.shape.cols + 1) * P.inRank.toNat
    have := S.dcmpLen
    have h3 : (P.inRank.toNat : ℤ) = P.inRank := Int.toNat_of_nonneg (by omega)
    have h4 : P.dcmpLen = (((P.shape.cols + 1) * P.inRank.toNat : ℕ) : ℤ) := by push_cast; rw [h3, this]
    rw [h4, Int.toNat_natCast]
  · rw [hkey, hpar]
    show (K.inn.map _).length = P.inRank.toNat
    rw [List.length_map, m1]; rfl
  · rw [hkey, hpar]
    intro x hx
    obtain ⟨y, hy, rfl⟩ := List.mem_map.mp hx
    rw [List.length_map, m2 y hy]; rfl
  · rw [hkey, hpar]
    show (K.mlwe.map _).length = P.inRank.toNat
    rw [List.length_map, m3]; rfl
  · rw [hkey, hpar]
    intro x hx
    obtain ⟨y, hy, rfl⟩ := List.mem_map.mp hx
    rw [List.length_map, m4 y hy]; rfl
  · rw [hkey, hpar]
    show (K.out.map _).length = P.outRank.toNat
    rw [List.length_map, m5]; rfl
  · rw [hkey, hpar]
    intro x hx
    obtain ⟨y, hy, rfl⟩ := List.mem_map.mp hx
    rw [List.length_map, m6 y hy]; rfl
  · rw [hpar]; exact hE.modUp
  · exact hE.mono
  · rw [hpar]
    show resNm ≤ _
    have := half_ge (x := P.resTwoNm) (by linarith) (by rw [hQ]; omega) (hE.conv ((E.ringQ.qs.prod - 1) / 2))
    rw [← hres] at this
    exact_mod_cast this
  · rw [hpar]
    show dcmpNm ≤ _
    have := half_ge (x := P.inComDcmpTwoNm) r2 (by rw [hQ']; omega) (hE.conv ((E.ringQ'.qs.prod - 1) / 2))
    rw [← hdc] at this
    exact_mod_cast this

end

end Ringo
