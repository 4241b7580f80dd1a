import Verif.Spec.JSearch
import Verif.Props.JRound
import Verif.Props.JSkip

/-!
# C126: `NewParameters` returns the smallest candidate
-/

namespace Ringo

open Real

/-- What a search does with a candidate `C` of size `z`. -/
noncomputable def keep (C : RParams) (z : ℝ) (s : RParams × Option ℝ) : RParams × Option ℝ :=
  if (match s.2 with | none => true | some x => decide (z < x)) then (C, some z) else s

/-- A search that keeps the first of the smallest. -/
theorem search_min {step : RParams × Option ℝ → Nat → Go (RParams × Option ℝ)} {z : RParams → ℝ} (L : List Nat)
    (h : ∀ n ∈ L, ∀ s s', step s n = .ok s' → (∀ t, step t n = .ok t) ∨ ∃ C, ∀ t, step t n = .ok (keep C (z C) t))
    {s1 : RParams × Option ℝ} (hs : L.foldlM step (RParams.zero, none) = .ok s1) :
    (s1 = (RParams.zero, none) ∧ ∀ n ∈ L, ∀ C x, step (RParams.zero, none) n ≠ .ok (C, some x)) ∨
    ∃ L1 i L2, L = L1 ++ i :: L2 ∧ s1.2 = some (z s1.1) ∧ step (RParams.zero, none) i = .ok s1 ∧
      (∀ n ∈ L1, ∀ C x, step (RParams.zero, none) n = .ok (C, some x) → z s1.1 < z C) ∧
      ∀ n ∈ L2, ∀ C x, step (RParams.zero, none) n = .ok (C, some x) → z s1.1 ≤ z C := by
  induction L using List.reverseRecOn generalizing s1 with
  | nil =>
    injection hs with hs
    exact .inl ⟨hs.symm, fun n hn => absurd hn (by simp)⟩
  | append_singleton L n ih =>
    rw [List.foldlM_append] at hs
    obtain ⟨s0, h0, hs⟩ := bind_ok_inv hs
    have hstep : step s0 n = .ok s1 := by
      simp only [List.foldlM_cons, List.foldlM_nil] at hs
      obtain ⟨s', h1, h2⟩ := bind_ok_inv hs
      injection h2 with h2
      rw [h1, h2]
    have ih := ih (fun m hm => h m (by simp [hm])) h0
    rcases h n (by simp) _ _ hstep with hn | ⟨C, hn⟩
    · -- no candidate
      have e : s1 = s0 := by have := (hn s0).symm.trans hstep; injection this with this; exact this.symm
      subst e
      have hno : ∀ C x, step (RParams.zero, none) n ≠ .ok (C, some x) := by
        intro C x hx
        rw [hn] at hx
        cases hx
      rcases ih with ⟨a, b⟩ | ⟨L1, i, L2, a, b, c, d, e⟩
      · refine .inl ⟨a, fun m hm => ?_⟩
        rcases List.mem_append.1 hm with hm | hm
        · exact b m hm
        · rw [List.mem_singleton.1 hm]; exact hno
      · refine .inr ⟨L1, i, L2 ++ [n], by rw [a]; simp, b, c, d, fun m hm C x hx => ?_⟩
        rcases List.mem_append.1 hm with hm | hm
        · exact e m hm C x hx
        · rw [List.mem_singleton.1 hm] at hx
          exact absurd hx (hno C x)
    · have h00 : step (RParams.zero, none) n = .ok (C, some (z C)) := by rw [hn]; rfl
      have huniq : ∀ C' x, step (RParams.zero, none) n = .ok (C', some x) → C' = C := by
        intro C' x hx
        rw [h00] at hx
        injection hx with hx
        exact (congrArg Prod.fst hx).symm
      have e : s1 = keep C (z C) s0 := by
        have := (hn s0).symm.trans hstep; injection this with this; exact this.symm
      rcases ih with ⟨a, b⟩ | ⟨L1, i, L2, a, b, c, d, e'⟩
      · rw [a] at e
        have e : s1 = (C, some (z C)) := e
        subst e
        exact .inr ⟨L, n, [], by simp, rfl, h00, fun m hm C' x hx => absurd hx (b m hm C' x), by simp⟩
      · unfold keep at e
        rw [b] at e
        dsimp only at e
        by_cases hlt : z C < z s0.1
        · rw [if_pos (by simpa using hlt)] at e
          subst e
          refine .inr ⟨L, n, [], by simp, rfl, h00, fun m hm C' x hx => ?_, by simp⟩
          refine lt_of_lt_of_le hlt ?_
          rw [a] at hm
          rcases List.mem_append.1 hm with hm | hm
          · exact (d m hm C' x hx).le
          · rcases List.mem_cons.1 hm with rfl | hm
            · rw [c] at hx
              injection hx with hx
              rw [hx]
            · exact e' m hm C' x hx
        · rw [if_neg (by simpa using hlt)] at e
          subst e
          refine .inr ⟨L1, i, L2 ++ [n], by rw [a]; simp, b, c, d, fun m hm C' x hx => ?_⟩
          rcases List.mem_append.1 hm with hm | hm
          · exact e' m hm C' x hx
          · rw [List.mem_singleton.1 hm] at hx
            rw [huniq C' x hx]
            exact not_lt.1 hlt

theorem npAssign_keep (F : Flt) {gen : ℤ → ℤ → Option (List Nat)} {targetN batch : Nat} {e : EcdParams} {nn mu : Nat}
    {outRank : ℤ} {Q Q' : List Nat} (hQ : F.primesFor gen (F.inQ (F.npVars targetN batch e nn) mu) = some Q)
    (hQ' : F.primesFor gen (F.outQ (F.npVars targetN batch e nn) mu) = some Q') (s : RParams × Option ℝ) :
    F.npAssign (F.npVars targetN batch e nn) gen batch e nn mu outRank s =
      keep (F.final targetN batch e nn mu outRank Q Q') (F.sizeOf (F.final targetN batch e nn mu outRank Q Q')) s := by
  unfold Flt.npAssign keep
  simp only [hQ, hQ']
  rfl

/-- An iteration skips its number of columns, or offers it. -/
theorem fstep_keep {F : Flt} (hF : F.Ok) {gen : ℤ → ℤ → Option (List Nat)} (hg : GenOk gen)
    {targetN batch : Nat} {e : EcdParams} {nn : Nat}
    (hk : ∃ i, e.exp = 2 ^ i) (ht : 1 ≤ targetN) (ht' : targetN ≤ 2 ^ 47) (hb : 1 ≤ batch)
    (hb' : batch ≤ 2 ^ 53) (hbase : 2 ≤ e.base) (hnn : 1 ≤ nn)
    (hnn' : nn ≤ ceilDiv targetN (max e.exp 256 / e.exp)) {s s' : RParams × Option ℝ}
    (h : F.npStep gen targetN batch e s nn = .ok s') :
    (∀ t, F.npStep gen targetN batch e t nn = .ok t) ∨
      ∃ C : RParams, C.shape.cols = nn ∧ ∀ t, F.npStep gen targetN batch e t nn = .ok (keep C (F.sizeOf C) t) := by
  have hexp : 1 ≤ e.exp := by obtain ⟨i, hi⟩ := hk; rw [hi]; exact Nat.two_pow_pos i
  have hV : (npVars targetN batch e nn).Ok := npVars_ok ht hb hbase hexp hnn
  obtain ⟨hW, -⟩ := fvars hF hk ht ht' hb' hbase hnn hnn'
  unfold Flt.npStep at h ⊢
  obtain ⟨mu, h1, h⟩ := bind_ok_inv h
  dsimp only
  simp only [h1, go_bind_ok]
  split at h
  · rename_i h2
    left
    intro t
    rw [if_pos h2]; rfl
  · rename_i h2
    push Not at h2
    obtain ⟨r, h3, h⟩ := bind_ok_inv h
    obtain ⟨a1, a2, L, M, hm, hle, -⟩ := finner hF hV hW h1
    obtain ⟨-, -, -, -, L', M', hm', -, -⟩ := fouter hF hV hW a1 hm hle h2 h3
    obtain ⟨Q, hQ, hQp⟩ := primesFor_ok hg hm.pos' (by rw [← hm.eq]; exact hm.le)
    obtain ⟨Q', hQ', hQp'⟩ := primesFor_ok hg hm'.pos' (by rw [← hm'.eq]; exact hm'.le)
    rw [← hm.eq] at hQ hQp
    rw [← hm'.eq] at hQ' hQp'
    rw [← fprimes_eq hF gen hm.pos hm.le hm.log] at hQ
    rw [← fprimes_eq hF gen hm'.pos hm'.le hm'.log] at hQ'
    right
    refine ⟨F.final targetN batch e nn mu r Q Q', ?_, fun t => ?_⟩
    · have hsh : (F.final targetN batch e nn mu r Q Q').shape =
          { F.shapeOf (F.npVars targetN batch e nn) batch e with ringQ := some nn, ringQOut := some nn } := rfl
      rw [hsh, fshape hF hk hW]
    · rw [if_neg (not_lt.2 h2), h3, go_bind_ok]
      exact congrArg Except.ok (npAssign_keep F hQ hQ' t)

theorem doublings_lt_append {lo hi : Nat} {L1 L2 : List Nat} {i : Nat} (h : doublings lo hi = L1 ++ i :: L2) :
    (∀ n ∈ doublings lo hi, lo ≤ n) ∧ (∀ n ∈ L1, n < i) ∧ ∀ n ∈ L2, i < n := by
  induction lo using doublings.induct hi generalizing L1 with
  | case1 lo hc ih =>
    have hlow : ∀ (l : Nat), 1 ≤ l → ∀ n ∈ doublings l hi, l ≤ n := by
      intro l
      induction l using doublings.induct hi with
      | case1 l hc ih =>
        intro hl n hn
        rw [doublings, if_pos hc, List.mem_cons] at hn
        rcases hn with rfl | hn
        · exact le_rfl
        · have := ih (by omega) n hn; omega
      | case2 l hc => intro _ n hn; rw [doublings, if_neg hc] at hn; cases hn
    refine ⟨hlow lo hc.1, ?_⟩
    rw [doublings, if_pos hc] at h
    rcases L1 with _ | ⟨a, L1⟩
    · injection h with h1 h2
      subst h1
      refine ⟨by simp, fun n hn => ?_⟩
      rw [← h2] at hn
      have := hlow _ (by omega) n hn
      omega
    · injection h with h1 h2
      subst h1
      obtain ⟨-, b, c⟩ := ih h2
      refine ⟨fun n hn => ?_, c⟩
      rcases List.mem_cons.1 hn with rfl | hn
      · have := hlow (2 * n) (by omega) i (by rw [h2]; simp)
        omega
      · exact b n hn
  | case2 lo hc =>
    rw [doublings, if_neg hc] at h
    cases L1 <;> cases h

theorem lt_iff_le_ceilDiv {a l n : Nat} (hl : 1 ≤ l) (hn : 1 ≤ n) : (n - 1) * l < a ↔ n ≤ ceilDiv a l := by
  unfold ceilDiv
  rw [Nat.le_div_iff_mul_le (by omega)]
  obtain ⟨m, rfl⟩ : ∃ m, n = m + 1 := ⟨n - 1, by omega⟩
  simp only [Nat.add_sub_cancel, Nat.add_mul]
  omega

/-- **C126.**  `NewParameters` returns the candidate with the smallest `Size()`, the one with the fewest columns if
there are several, and the zero value only if there is no candidate. -/
theorem C126_smallest {F : Flt} (hF : F.Ok) {gen : ℤ → ℤ → Option (List Nat)} (hg : GenOk gen)
    {targetN batch p : Nat} (hp : 3 ≤ p) (ht : targetN ≤ 2 ^ 47) (hb : batch ≤ 2 ^ 53)
    {P : RParams} (h : F.newParameters gen targetN batch p = .ok P) :
    (P = RParams.zero ∧ ∀ nn C, Tried targetN p nn → ¬ F.Candidate gen targetN batch p nn C) ∨
    (Tried targetN p P.shape.cols ∧ F.Candidate gen targetN batch p P.shape.cols P ∧
      ∀ nn C, Tried targetN p nn → F.Candidate gen targetN batch p nn C →
        F.sizeOf P ≤ F.sizeOf C ∧ (nn < P.shape.cols → F.sizeOf P < F.sizeOf C)) := by
  unfold Flt.newParameters at h
  split at h
  · cases h
  rename_i ht1
  split at h
  · cases h
  rename_i hb1
  obtain ⟨e, he, h⟩ := bind_ok_inv h
  obtain ⟨s, hs, h⟩ := bind_ok_inv h
  injection h with h
  subst h
  obtain ⟨hb2, he2⟩ := ecd_base_exp hp he
  obtain ⟨c1, c2, -⟩ := C61_result p hp e he
  rw [fmaxCols hF c2 (by omega) ht] at hs
  have hl := slots_pos he2
  have hstep : ∀ n ∈ doublings 1 (ceilDiv targetN (max e.exp 256 / e.exp)), ∀ s s',
      F.npStep gen targetN batch e s n = .ok s' → (∀ t, F.npStep gen targetN batch e t n = .ok t) ∨
        ∃ C : RParams, C.shape.cols = n ∧ ∀ t, F.npStep gen targetN batch e t n = .ok (keep C (F.sizeOf C) t) :=
    fun n hn s s' h => fstep_keep hF hg c2 (by omega) ht (by omega) hb hb2 (mem_doublings_pos hn) (doublings_le hn) h
  have htried : ∀ nn, Tried targetN p nn → nn ∈ doublings 1 (ceilDiv targetN (max e.exp 256 / e.exp)) := by
    rintro nn ⟨e', j, he', hj, hlt⟩
    rw [he] at he'
    injection he' with he'
    subst he'
    refine mem_doublings (j := j) le_rfl (by omega) ?_
    exact (lt_iff_le_ceilDiv hl (by rw [hj]; exact Nat.two_pow_pos j)).1 hlt
  have hcand : ∀ nn C, F.Candidate gen targetN batch p nn C →
      ∃ x, F.npStep gen targetN batch e (RParams.zero, none) nn = .ok (C, some x) := by
    rintro nn C ⟨e', x, he', hx⟩
    rw [he] at he'
    injection he' with he'
    subst he'
    exact ⟨x, hx⟩
  rcases search_min (z := F.sizeOf) _ (fun n hn s s' h => by
      rcases hstep n hn s s' h with h | ⟨C, -, h⟩
      · exact .inl h
      · exact .inr ⟨C, h⟩) hs with ⟨a, b⟩ | ⟨L1, i, L2, a, b, c, d, e'⟩
  · refine .inl ⟨by rw [a], fun nn C hn hC => ?_⟩
    obtain ⟨x, hx⟩ := hcand nn C hC
    exact b nn (htried nn hn) C x hx
  · have hi : i ∈ doublings 1 (ceilDiv targetN (max e.exp 256 / e.exp)) := by rw [a]; simp
    obtain ⟨j, hj⟩ := doublings_pow2 _ _ ⟨0, rfl⟩ i hi
    have hs1 : s = (s.1, some (F.sizeOf s.1)) := by rw [← b]
    have hcols : s.1.shape.cols = i := by
      rcases hstep i hi _ _ c with h | ⟨C, h1, h⟩
      · rw [h] at c
        injection c with c
        rw [← c] at b
        cases b
      · have h2 := (h (RParams.zero, none)).symm.trans c
        injection h2 with h2
        rw [← h2, ← h1]
        rfl
    rw [hcols]
    obtain ⟨-, m1, m2⟩ := doublings_lt_append a
    refine .inr ⟨⟨e, j, he, hj, (lt_iff_le_ceilDiv hl (mem_doublings_pos hi)).2 (doublings_le hi)⟩,
      ⟨e, F.sizeOf s.1, he, by rw [c, ← hs1]⟩, fun nn C hn hC => ?_⟩
    obtain ⟨x, hx⟩ := hcand nn C hC
    have hm := htried nn hn
    rw [a] at hm
    rcases List.mem_append.1 hm with hm | hm
    · exact ⟨(d nn hm C x hx).le, fun _ => d nn hm C x hx⟩
    · rcases List.mem_cons.1 hm with rfl | hm
      · rw [c, hs1] at hx
        injection hx with hx
        have hx : s.1 = C := congrArg Prod.fst hx
        rw [← hx]
        exact ⟨le_rfl, fun hlt => absurd hlt (lt_irrefl _)⟩
      · exact ⟨e' nn hm C x hx, fun hlt => absurd (m2 nn hm) (by omega)⟩

/-- **Case for C126**: 16 coefficients over the field of order 65537.  One number of columns is tried, and it is
returned, for every floating-point unit. -/
theorem C126_case {F : Flt} (hF : F.Ok) {gen : ℤ → ℤ → Option (List Nat)} (hg : GenOk gen) :
    ∃ P, F.newParameters gen 16 1 65537 = .ok P ∧ P.shape.cols = 1 ∧ F.Candidate gen 16 1 65537 1 P ∧
      (∀ nn, Tried 16 65537 nn ↔ nn = 1) := by
  obtain ⟨P, h1, h2⟩ := case_sound_gen hF hg
  have ht : ∀ nn, Tried 16 65537 nn ↔ nn = 1 := by
    intro nn
    constructor
    · rintro ⟨e, j, he, rfl, h⟩
      rw [encPars_65537] at he
      injection he with he
      subst he
      have : (2 ^ j - 1) * 16 < 16 := h
      have := Nat.two_pow_pos j
      omega
    · rintro rfl
      exact ⟨⟨2, 16⟩, 0, encPars_65537, rfl, by norm_num⟩
  rcases C126_smallest hF hg (by norm_num) (by norm_num) (by norm_num) h1 with ⟨h, -⟩ | ⟨h3, h4, -⟩
  · rw [h] at h2
    exact absurd h2.inRank (by simp [RParams.zero])
  · have := (ht _).1 h3
    rw [this] at h4
    exact ⟨P, h1, this, h4, ht⟩

/-- **C126 needs the primes.**  If the generator finds none, the code goes on to the next number of columns with the
sizes of this one already stored: `NewParameters` returns a matrix for 16 coefficients and ranks, but no rings, and
norm bounds of zero. -/
theorem C126_refuted_noPrimes {F : Flt} (hF : F.Ok) : ∃ P, F.newParameters (fun _ _ => none) 16 1 65537 = .ok P ∧
    P.shape.rank = 16 ∧ P.shape.cols = 1 ∧ P.shape.rows = 2 ∧ P.qs = none ∧ P.qs' = none ∧ P.resTwoNm = 0 ∧
    P.inComDcmpTwoNm = 0 := by
  have hg : GenOk fun bits limbs => some (List.replicate limbs.toNat (2 ^ bits.toNat + 1)) := by
    intro bits limbs h1 h2 h3 h4
    refine ⟨_, rfl, by rw [List.length_replicate, Int.toNat_of_nonneg (by omega)], fun q hq => ?_⟩
    rw [List.eq_of_mem_replicate hq]
    push_cast
    omega
  obtain ⟨P, -, -, ⟨e, x, he, hx⟩, -⟩ := C126_case hF hg
  rw [encPars_65537] at he
  injection he with he
  subst he
  obtain ⟨hW, -⟩ := fvars hF (targetN := 16) (batch := 1) (e := ⟨2, 16⟩) (nn := 1) ⟨4, rfl⟩ (by norm_num) (by norm_num)
    (by norm_num) (by norm_num) le_rfl le_rfl
  have hsh := fshape hF (batch := 1) (e := ⟨2, 16⟩) ⟨4, rfl⟩ hW
  unfold Flt.npStep at hx
  obtain ⟨mu, h1, h⟩ := bind_ok_inv hx
  split at h
  · cases h
  rename_i h2
  obtain ⟨r, h3, -⟩ := bind_ok_inv h
  have hstep : F.npStep (fun _ _ => none) 16 1 ⟨2, 16⟩ (RParams.zero, none) 1 =
      .ok (F.npAssign (F.npVars 16 1 ⟨2, 16⟩ 1) (fun _ _ => none) 1 ⟨2, 16⟩ 1 mu r (RParams.zero, none)) := by
    unfold Flt.npStep
    dsimp only
    rw [h1, go_bind_ok, if_neg h2, h3]
    rfl
  refine ⟨(F.npAssign (F.npVars 16 1 ⟨2, 16⟩ 1) (fun _ _ => none) 1 ⟨2, 16⟩ 1 mu r (RParams.zero, none)).1, ?_, ?_⟩
  · unfold Flt.newParameters
    rw [if_neg (by norm_num), if_neg (by norm_num), encPars_65537, go_bind_ok]
    dsimp only
    rw [fmaxCols hF (targetN := 16) (k := 16) ⟨4, rfl⟩ (by norm_num) (by norm_num), show ceilDiv 16 (max 16 256 / 16) = 1 from rfl,
      show doublings 1 1 = [1] by simp [doublings], List.foldlM_cons, hstep]
    rfl
  · unfold Flt.npAssign Flt.primesFor
    simp only [hsh]
    simp [RParams.zero, JParams.zero, ceilDiv]

end Ringo
