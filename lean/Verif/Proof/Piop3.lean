import Verif.Proof.Piop2
import Verif.Props.Csprng
import Verif.Props.Linear

/-!
# The linear check and the sumcheck
-/

namespace Ringo

open Finset Polynomial

section
variable {p : Nat} [Fact p.Prime]
variable {K Ke : Nat} {g ge : ZMod p} {cp : Compilation (ZMod p)}

/-! ## Encodings as polynomials -/

/-- The polynomial `Encode` makes of a vector. -/
noncomputable def encP (cp : Compilation (ZMod p)) (v : List (ZMod p)) : (ZMod p)[X] :=
  match cp.ecd.encode v with
  | .ok q => listPoly q.coeffs
  | .error _ => 0

theorem GoodCp.encP_degree (h : GoodCp K Ke g ge cp) (v : List (ZMod p)) (hv : v.length = 2 ^ K) :
    (encP cp v).natDegree ≤ 2 ^ K - 1 := by
  obtain ⟨e, e1, -, e3, -⟩ := h.encode v hv
  unfold encP; rw [e1]; exact e3

theorem GoodCp.encP_eval (h : GoodCp K Ke g ge cp) (v : List (ZMod p)) (hv : v.length = 2 ^ K)
    (i : Nat) (hi : i < 2 ^ K) : (encP cp v).eval (g ^ rev K i) = v.getD i 0 := by
  obtain ⟨e, e1, -, -, e4⟩ := h.encode v hv
  unfold encP; rw [e1]; exact e4 i hi

theorem GoodCp.eq_of_domain (h : GoodCp K Ke g ge cp) {f f' : (ZMod p)[X]}
    (hf : f.natDegree ≤ 2 ^ K - 1) (hf' : f'.natDegree ≤ 2 ^ K - 1)
    (he : ∀ i < 2 ^ K, f.eval (g ^ rev K i) = f'.eval (g ^ rev K i)) : f = f' := by
  have hd : (X ^ 2 ^ K - 1) ∣ f - f' := by
    rw [h.pts.dvd_iff]; intro i hi; rw [eval_sub, he i hi, sub_self]
  by_contra hne
  have h1 := natDegree_le_of_dvd hd (sub_ne_zero.mpr hne)
  have h2 : (X ^ 2 ^ K - 1 : (ZMod p)[X]).natDegree = 2 ^ K :=
    natDegree_eq_of_degree_eq_some (X_pow_sub_one_degree _ (Nat.two_pow_pos K))
  have h3 := natDegree_sub_le f f'
  have h4 := Nat.two_pow_pos K
  omega

theorem GoodCp.encodeTo_encP (h : GoodCp K Ke g ge cp) (pOut : Poly (ZMod p)) (v : List (ZMod p))
    (ho : pOut.coeffs.length = 2 ^ Ke) (hv : v.length = 2 ^ K) :
    ∃ e, cp.ecd.encodeTo pOut v = .ok ⟨e, false⟩ ∧ e.length = 2 ^ Ke ∧ listPoly e = encP cp v := by
  obtain ⟨e, e1, e2, e3, e4⟩ := h.encodeTo pOut v ho hv
  refine ⟨e, e1, e2, h.eq_of_domain e3 (h.encP_degree v hv) ?_⟩
  intro i hi
  rw [e4 i hi, h.encP_eval v hv i hi]

theorem GoodCp.encode_encP (h : GoodCp K Ke g ge cp) (v : List (ZMod p)) (hv : v.length = 2 ^ K) :
    ∃ e, cp.ecd.encode v = .ok ⟨e, false⟩ ∧ e.length = 2 ^ Ke ∧ listPoly e = encP cp v := by
  unfold BEncoder.encode
  exact h.encodeTo_encP _ v (by simp [newPoly, h.embed]) hv

/-! ## Sums over the domain -/

theorem GoodCp.two_pow_ne (h : GoodCp K Ke g ge cp) : ((2 ^ K : Nat) : ZMod p) ≠ 0 := by
  intro h0
  have h2 : (2 : ZMod p) = 0 := by
    rw [Nat.cast_pow] at h0
    simpa using pow_eq_zero_iff (n := K) (by have := h.hK; omega) |>.mp h0
  have hp : g ^ 2 ^ (K - 1) = 1 := by
    have h1 : (g ^ 2 ^ (K - 1)) ^ 2 = 1 := by
      rw [← pow_mul, ← pow_succ, show K - 1 + 1 = K by have := h.hK; omega]
      exact h.ecd.prim.pow_eq_one
    have h3 : (g ^ 2 ^ (K - 1) - 1) ^ 2 = 0 := by
      have : (g ^ 2 ^ (K - 1) - 1) ^ 2 = (g ^ 2 ^ (K - 1)) ^ 2 - 2 * g ^ 2 ^ (K - 1) + 1 := by ring
      rw [this, h1, h2, zero_mul, sub_zero]
      have : (1 : ZMod p) + 1 = 2 := by norm_num
      rw [this, h2]
    exact sub_eq_zero.mp (pow_eq_zero_iff (n := 2) (by norm_num) |>.mp h3)
  have := h.ecd.prim.dvd_of_pow_eq_one _ hp
  have h4 := Nat.le_of_dvd (Nat.two_pow_pos _) this
  have h5 : 2 ^ K = 2 * 2 ^ (K - 1) := by
    rw [← pow_succ']; congr 1; have := h.hK; omega
  have h6 := Nat.two_pow_pos (K - 1)
  omega

/-- The sum of a polynomial over the domain. -/
noncomputable def dsum (K : Nat) (g : ZMod p) (f : (ZMod p)[X]) : ZMod p :=
  ∑ i ∈ range (2 ^ K), f.eval (g ^ rev K i)

theorem dsum_add (f f' : (ZMod p)[X]) : dsum K g (f + f') = dsum K g f + dsum K g f' := by
  unfold dsum; rw [← sum_add_distrib]; simp

theorem dsum_sub (f f' : (ZMod p)[X]) : dsum K g (f - f') = dsum K g f - dsum K g f' := by
  unfold dsum; rw [← sum_sub_distrib]; simp

theorem dsum_C_mul (c : ZMod p) (f : (ZMod p)[X]) : dsum K g (C c * f) = c * dsum K g f := by
  unfold dsum; rw [mul_sum]; simp

theorem dsum_C (c : ZMod p) : dsum K g (C c) = (2 ^ K : Nat) * c := by
  unfold dsum; simp

theorem GoodCp.dsum_vanish (h : GoodCp K Ke g ge cp) (f : (ZMod p)[X]) :
    dsum K g (f * (X ^ 2 ^ K - 1)) = 0 := by
  unfold dsum
  apply sum_eq_zero
  intro i _
  rw [eval_mul, h.domain, mul_zero]

theorem sum_rev {M : Type} [AddCommMonoid M] (K : Nat) (f : Nat → M) :
    ∑ i ∈ range (2 ^ K), f (rev K i) = ∑ i ∈ range (2 ^ K), f i := by
  apply sum_bij (fun i _ => rev K i)
  · intro i _; rw [mem_range]; exact rev_lt K i
  · intro i hi j hj he; exact rev_inj (mem_range.mp hi) (mem_range.mp hj) he
  · intro i hi; exact ⟨rev K i, mem_range.mpr (rev_lt K i), rev_rev K i (mem_range.mp hi)⟩
  · intro i _; rfl

theorem GoodCp.dsum_X_pow (h : GoodCp K Ke g ge cp) (j : Nat) (h0 : 0 < j) (hj : j < 2 ^ K) :
    dsum K g (X ^ j) = 0 := by
  unfold dsum
  simp only [eval_pow, eval_X]
  rw [sum_rev K (fun i => (g ^ i) ^ j)]
  have hne : g ^ j ≠ 1 := by
    intro h1
    have := Nat.le_of_dvd h0 (h.ecd.prim.dvd_of_pow_eq_one _ h1)
    omega
  have h1 : ∀ i ∈ range (2 ^ K), (g ^ i) ^ j = (g ^ j) ^ i := by
    intro i _; rw [← pow_mul, ← pow_mul, mul_comm]
  rw [sum_congr rfl h1]
  have h2 := geom_sum_mul (g ^ j) (2 ^ K)
  rw [← pow_mul, mul_comm j, pow_mul, h.ecd.prim.pow_eq_one, one_pow, sub_self] at h2
  exact (mul_eq_zero.mp h2).resolve_right (sub_ne_zero.mpr hne)

/-- A polynomial of degree below the rank sums to `rank` times its constant term. -/
theorem GoodCp.dsum_low (h : GoodCp K Ke g ge cp) (f : (ZMod p)[X]) (hf : f.natDegree < 2 ^ K) :
    dsum K g f = (2 ^ K : Nat) * f.coeff 0 := by
  conv_lhs => rw [f.as_sum_range_C_mul_X_pow' hf]
  have hs : ∀ s : Finset Nat, dsum K g (∑ i ∈ s, C (f.coeff i) * X ^ i) =
      ∑ i ∈ s, f.coeff i * dsum K g (X ^ i) := by
    intro s
    induction s using Finset.induction_on with
    | empty => simp [dsum]
    | insert a s ha ih => rw [sum_insert ha, sum_insert ha, dsum_add, ih, dsum_C_mul]
  rw [hs, sum_eq_single 0]
  · rw [pow_zero, ← C_1, dsum_C]; ring
  · intro i hi hi0
    rw [h.dsum_X_pow i (by omega) (mem_range.mp hi), mul_zero]
  · intro hn; exact absurd (mem_range.mpr (Nat.two_pow_pos K)) hn

theorem GoodCp.dsum_mod (h : GoodCp K Ke g ge cp) (f : (ZMod p)[X]) :
    dsum K g f = (2 ^ K : Nat) * (f %ₘ (X ^ 2 ^ K - 1)).coeff 0 := by
  have hm := X_pow_sub_one_monic (p := p) (2 ^ K) (Nat.two_pow_pos K).ne'
  have hd : (X ^ 2 ^ K - 1 : (ZMod p)[X]).natDegree = 2 ^ K :=
    natDegree_eq_of_degree_eq_some (X_pow_sub_one_degree _ (Nat.two_pow_pos K))
  conv_lhs => rw [← modByMonic_add_div f (X ^ 2 ^ K - 1)]
  rw [dsum_add, mul_comm, h.dsum_vanish, add_zero]
  apply h.dsum_low
  have := natDegree_modByMonic_lt f hm (by
    intro h1; rw [h1, natDegree_one] at hd; have := Nat.two_pow_pos K; omega)
  rwa [hd] at this

/-! ## Masks -/

/-- The polynomial of the first `n` random elements. -/
noncomputable def rPoly (r : Nat → ZMod p) (n : Nat) : (ZMod p)[X] := ∑ i ∈ range n, C (r i) * X ^ i

theorem listPoly_replicate_zero {F : Type} [Field F] (n : Nat) : listPoly (List.replicate n (0 : F)) = 0 := by
  ext k
  rw [listPoly_coeff, coeff_zero, List.getD_eq_getElem?_getD, List.getElem?_replicate]
  split <;> rfl

theorem GoodCp.sumCheckMask (h : GoodCp K Ke g ge cp) (maskRank : Nat) (h1 : 2 ^ K ≤ maskRank)
    (h2 : maskRank ≤ 2 ^ Ke) (r : Nat → ZMod p) :
    ∃ mask, sumCheckMask cp.ev (2 ^ K) maskRank r = .ok (⟨mask, false⟩, r 0) ∧
      mask.length = 2 ^ Ke ∧ (∀ i, maskRank ≤ i → mask.getD i 0 = 0) ∧
      dsum K g (listPoly mask) = (2 ^ K : Nat) * r 0 := by
  have hN := Nat.two_pow_pos K
  obtain ⟨m1, a1, a2, a3, a4⟩ := forRange_spec
    (f := fun (mask : List (ZMod p)) i => setIdx mask i (r i)) 0 (2 ^ K) (Nat.zero_le _)
    (fun i m => m.length = 2 ^ Ke ∧ (∀ j < i, m.getD j 0 = r j) ∧ (∀ j, i ≤ j → m.getD j 0 = 0))
    (List.replicate (2 ^ Ke) 0) ⟨by simp, by simp, by
      intro j _; rw [List.getD_eq_getElem?_getD, List.getElem?_replicate]; split <;> rfl⟩ (by
      rintro i m _ hi ⟨b1, b2, b3⟩
      have hl := h.lt
      have hil : i < m.length := by omega
      refine ⟨m.set i (r i), setIdx_ok hil, by simpa using b1, ?_, ?_⟩
      · intro j hj
        rw [getD_set _ _ _ _ hil]
        split
        · subst_vars; rfl
        · exact b2 j (by omega)
      · intro j hj
        rw [getD_set _ _ _ _ hil, if_neg (by omega)]
        exact b3 j (by omega))
  have hl := h.lt
  have hm0 : 0 < m1.length := by omega
  have hlow : (listPoly m1).natDegree < 2 ^ K := by
    have := listPoly_natDegree_of_zero m1 (2 ^ K) hN a4
    omega
  obtain ⟨m2, b1, b2, b3, b4, q, b5⟩ := forRange_spec
    (f := fun (mask : List (ZMod p)) i => (do
      let mask ← setIdx mask i (r i)
      let a ← idx mask (i - 2 ^ K)
      let b ← idx mask i
      setIdx mask (i - 2 ^ K) (a - b) : Go (List (ZMod p)))) (2 ^ K) maskRank h1
    (fun i m => m.length = 2 ^ Ke ∧ (∀ j, i ≤ j → m.getD j 0 = 0) ∧ True ∧
      ∃ q : (ZMod p)[X], listPoly m = listPoly m1 + q * (X ^ 2 ^ K - 1))
    m1 ⟨a2, a4, trivial, 0, by ring⟩ (by
      rintro i m hi hi' ⟨c1, c2, -, q, c3⟩
      have hil : i < m.length := by omega
      have hl1 : (m.set i (r i)).length = m.length := by simp
      have hik : i - 2 ^ K < (m.set i (r i)).length := by omega
      have hii : i < (m.set i (r i)).length := by omega
      refine ⟨(m.set i (r i)).set (i - 2 ^ K) ((m.set i (r i))[i - 2 ^ K] - (m.set i (r i))[i]),
        ?_, by simp [c1], ?_, trivial, q + C (r i) * X ^ (i - 2 ^ K), ?_⟩
      · rw [setIdx_ok hil, go_bind_ok, idx_ok hik, go_bind_ok, idx_ok hii, go_bind_ok, setIdx_ok hik]
      · intro j hj
        rw [getD_set _ _ _ _ hik, if_neg (by omega), getD_set _ _ _ _ hil, if_neg (by omega)]
        exact c2 j (by omega)
      · rw [listPoly_set _ _ _ hik, listPoly_set _ _ _ hil, c3, getD_eq hik, getD_eq hii]
        simp only [getD_set _ _ _ _ hil]
        rw [c2 i le_rfl, if_pos trivial]
        have e : (X : (ZMod p)[X]) ^ i = X ^ (i - 2 ^ K) * X ^ 2 ^ K := by
          rw [← pow_add]; congr 1; omega
        rw [e]
        simp only [sub_zero, C_sub]
        ring)
  refine ⟨m2, ?_, b2, b3, ?_⟩
  · unfold Ringo.sumCheckMask
    simp only [newPoly, h.ev.rank]
    rw [a1, go_bind_ok, idx_ok hm0, go_bind_ok, b1, go_bind_ok, getD_eq hm0, a3 0 hN]
    rfl
  · rw [b5, dsum_add, h.dsum_vanish, add_zero, h.dsum_low _ hlow, listPoly_coeff, a3 0 hN]

/-! ## Splitting the remainder -/

theorem mapM_idx (l : List (ZMod p)) (n : Nat) (hn : n + 1 ≤ l.length) :
    (List.range n).mapM (fun i => idx l (i + 1)) = (.ok ((List.range n).map (fun i => l.getD (i + 1) 0)) :
      Go (List (ZMod p))) := by
  have : ∀ (is : List Nat), (∀ i ∈ is, i + 1 < l.length) →
      is.mapM (fun i => idx l (i + 1)) = (.ok (is.map (fun i => l.getD (i + 1) 0)) : Go _) := by
    intro is
    induction is with
    | nil => intro _; rfl
    | cons i is ih =>
      intro hi
      rw [List.mapM_cons, idx_ok (hi i (by simp)), go_bind_ok, ih (fun j hj => hi j (by simp [hj]))]
      simp [getD_eq (hi i (by simp))]
  apply this
  intro i hi
  rw [List.mem_range] at hi
  omega

theorem splitRem_spec (N jrank : Nat) (hN : 0 < N) (hj : N - 1 ≤ jrank) (rem : List (ZMod p))
    (hl : N ≤ rem.length) (h0 : ∀ i, N ≤ i → rem.getD i 0 = 0) :
    ∃ remLo remHi, splitRem N jrank ⟨rem, false⟩ = .ok (remLo, remHi) ∧ remLo.length = N - 1 ∧
      remHi.length = jrank ∧ listPoly rem = C (rem.getD 0 0) + X * listPoly remLo ∧
      listPoly remHi = X ^ (jrank - (N - 1)) * listPoly remLo := by
  set lo : List (ZMod p) := (List.range (N - 1)).map (fun i => rem.getD (i + 1) 0) with hlo
  have hlen : lo.length = N - 1 := by simp [hlo]
  have hget : ∀ n, lo.getD n 0 = if n < N - 1 then rem.getD (n + 1) 0 else 0 := by
    intro n
    rw [List.getD_eq_getElem?_getD, hlo, List.getElem?_map]
    split
    · rename_i hn; simp [hn]
    · rename_i hn; rw [List.getElem?_eq_none (by simp; omega)]; rfl
  refine ⟨lo, List.replicate (jrank - (N - 1)) 0 ++ lo, ?_, hlen, by simp [hlen]; omega, ?_, ?_⟩
  · unfold splitRem
    rw [mapM_idx rem (N - 1) (by omega), go_bind_ok, if_neg (by omega)]
    rfl
  · ext n
    rw [coeff_add, listPoly_coeff, coeff_C]
    cases n with
    | zero => simp
    | succ n =>
      rw [coeff_X_mul, listPoly_coeff, hget, if_neg (by omega), zero_add]
      split
      · rfl
      · exact h0 _ (by omega)
  · ext n
    rw [coeff_X_pow_mul', listPoly_coeff, List.getD_eq_getElem?_getD]
    split
    · rw [List.getElem?_append_right (by simp; omega), listPoly_coeff, List.length_replicate,
        ← List.getD_eq_getElem?_getD]
    · rw [List.getElem?_append_left (by simp; omega), List.getElem?_replicate, if_pos (by omega)]
      rfl

/-! ## The vector of powers -/

theorem powerVec_spec (N : Nat) (hN : 0 < N) (c : ZMod p) :
    powerVec N c = .ok ((List.range N).map (fun i => c ^ i)) := by
  have h0 : 0 < (List.replicate N (0 : ZMod p)).length := by simpa using hN
  obtain ⟨v, v1, v2, v3⟩ := forRange_spec
    (f := fun (v : List (ZMod p)) i => (do
      let x ← idx v (i - 1)
      setIdx v i (x * c) : Go (List (ZMod p)))) 1 N hN
    (fun i v => v.length = N ∧ ∀ j < i, v.getD j 0 = c ^ j)
    ((List.replicate N 0).set 0 1) ⟨by simp, by
      intro j hj
      rw [getD_set _ _ _ _ h0, if_pos (by omega), show j = 0 by omega, pow_zero]⟩ (by
      rintro i v h1 h2 ⟨a1, a2⟩
      have hi1 : i - 1 < v.length := by omega
      have hi : i < v.length := by omega
      refine ⟨v.set i (v[i - 1] * c), by rw [idx_ok hi1, go_bind_ok, setIdx_ok hi], by simpa using a1, ?_⟩
      intro j hj
      rw [getD_set _ _ _ _ hi]
      split
      · subst_vars
        rw [getD_eq hi1, a2 _ (by omega), ← pow_succ]; congr 1; omega
      · exact a2 j (by omega))
  unfold powerVec
  rw [setIdx_ok h0, go_bind_ok, v1]
  congr 1
  apply list_ext_getD 0 N v2 (by simp)
  intro i hi
  rw [v3 i hi]
  simp [hi]

/-! ## The linear check -/

/-- The checker behind a key is one, and meets the contract. -/
def LinOK (N : Nat) (users : Nat → LinearChecker (ZMod p)) (proj : List (List Bool))
    (lin : List (CheckerKey × List (Nat × Nat))) : Prop :=
  ∀ e ∈ lin, ∃ L, resolve users proj e.1 = .ok L ∧ Adjoint N L

/-- The transpose a key stands for. -/
def keyTr (N : Nat) (users : Nat → LinearChecker (ZMod p)) (proj : List (List Bool))
    (k : CheckerKey) (v : List (ZMod p)) : List (ZMod p) :=
  match resolve users proj k with
  | .ok L => match L.transposeTo (List.replicate N 0) v with
    | .ok b => b
    | .error _ => []
  | .error _ => []

/-- The map a key stands for. -/
def keyMap (N : Nat) (users : Nat → LinearChecker (ZMod p)) (proj : List (List Bool))
    (k : CheckerKey) (v : List (ZMod p)) : List (ZMod p) :=
  match resolve users proj k with
  | .ok L => match L.transformTo (List.replicate N 0) v with
    | .ok b => b
    | .error _ => []
  | .error _ => []

theorem keyTr_spec {N : Nat} {users : Nat → LinearChecker (ZMod p)} {proj : List (List Bool)}
    {lin : List (CheckerKey × List (Nat × Nat))} (h : LinOK N users proj lin)
    {e : CheckerKey × List (Nat × Nat)} (he : e ∈ lin) (out v : List (ZMod p)) (ho : out.length = N)
    (hv : v.length = N) :
    ∃ L, resolve users proj e.1 = .ok L ∧ L.transposeTo out v = .ok (keyTr N users proj e.1 v) ∧
      (keyTr N users proj e.1 v).length = N := by
  obtain ⟨L, hL, hadj⟩ := h e he
  obtain ⟨a, b, -, h2, -, h4, -⟩ := hadj out (List.replicate N 0) v v ho (by simp) hv hv
  have hk : keyTr N users proj e.1 v = b := by unfold keyTr; rw [hL]; simp only [h2]
  refine ⟨L, hL, ?_, by rw [hk]; exact h4⟩
  rw [hk, hadj.transpose_indep out (List.replicate N 0) v ho (by simp) hv, h2]

theorem key_adjoint {N : Nat} {users : Nat → LinearChecker (ZMod p)} {proj : List (List Bool)}
    {lin : List (CheckerKey × List (Nat × Nat))} (h : LinOK N users proj lin)
    {e : CheckerKey × List (Nat × Nat)} (he : e ∈ lin) (u v : List (ZMod p)) (hu : u.length = N)
    (hv : v.length = N) :
    (keyMap N users proj e.1 v).length = N ∧
    inner N (keyMap N users proj e.1 v) u = inner N v (keyTr N users proj e.1 u) := by
  obtain ⟨L, hL, hadj⟩ := h e he
  obtain ⟨a, b, h1, h2, h3, h4, h5⟩ := hadj (List.replicate N 0) (List.replicate N 0) u v (by simp)
    (by simp) hu hv
  have hk : keyTr N users proj e.1 u = b := by unfold keyTr; rw [hL]; simp only [h2]
  have hm : keyMap N users proj e.1 v = a := by unfold keyMap; rw [hL]; simp only [h1]
  rw [hk, hm]
  exact ⟨h3, h5⟩

/-- The list of polynomials the linear check combines, one for each constraint: with `u` the vector
of powers, `E(Mᵀu) * wIn - E(u) * wOut`. -/
noncomputable def linTerms (cp : Compilation (ZMod p)) (users : Nat → LinearChecker (ZMod p))
    (proj : List (List Bool)) (witP : Nat → (ZMod p)[X]) (vec : List (ZMod p))
    (lin : List (CheckerKey × List (Nat × Nat))) : List (ZMod p)[X] :=
  lin.flatMap (fun e => e.2.map (fun x =>
    encP cp (keyTr cp.ctx.rank users proj e.1 vec) * witP x.2 - encP cp vec * witP x.1))

/-- Horner's rule, as in the loop. -/
def horner {R : Type} [CommRing R] (b : R) (ts : List R) (a : R) : R := ts.foldl (fun a t => b * a + t) a

theorem horner_append {R : Type} [CommRing R] (b : R) (ts ts' : List R) (a : R) :
    horner b (ts ++ ts') a = horner b ts' (horner b ts a) := by
  unfold horner; rw [List.foldl_append]

theorem linLoop_spec (h : GoodCp K Ke g ge cp) {wCnt : Nat}
    {pwNTT : List (Poly (ZMod p))} {wNTT : List (Option (Poly (ZMod p)))}
    {pubP witP : Nat → (ZMod p)[X]} {pwCnt : Nat}
    (ht : NttTables Ke (X ^ 2 ^ Ke - 1) (fun i => ge ^ rev Ke i) pwCnt wCnt pwNTT wNTT pubP witP)
    {users : Nat → LinearChecker (ZMod p)} {proj : List (List Bool)} (vec : List (ZMod p))
    (hvec : vec.length = 2 ^ K) (ecd : Poly (ZMod p))
    (hecd : StandsFor (2 ^ Ke) (X ^ 2 ^ Ke - 1) (fun i => ge ^ rev Ke i) ecd (encP cp vec))
    (necd : ecd.isNTT = true) (b : ZMod p) :
    ∀ (lin : List (CheckerKey × List (Nat × Nat))), LinOK (2 ^ K) users proj lin →
      (∀ e ∈ lin, ∀ x ∈ e.2, x.1 < wCnt ∧ x.2 < wCnt) →
      ∀ (s : Poly (ZMod p) × List (ZMod p) × Poly (ZMod p)) (a : (ZMod p)[X]),
        s.1.isNTT = true → StandsFor (2 ^ Ke) (X ^ 2 ^ Ke - 1) (fun i => ge ^ rev Ke i) s.1 a →
        s.2.1.length = 2 ^ K → s.2.2.coeffs.length = 2 ^ Ke →
        ∃ s', lin.foldlM (fun (s : Poly (ZMod p) × List (ZMod p) × Poly (ZMod p)) kc => do
            let tr ← resolve users proj kc.1
            let vecTr ← tr.transposeTo s.2.1 vec
            let ecdTr ← cp.ecd.encodeTo s.2.2 vecTr
            let ecdTr ← cp.ev.nttTo ecdTr ecdTr
            let eval ← kc.2.foldlM (fun (eval : Poly (ZMod p)) (w : Nat × Nat) => do
              let wOut ← slot wNTT w.1
              let wIn ← slot wNTT w.2
              let term ← cp.ev.mulTo (newPoly cp.ev.rank true) ecdTr wIn
              let term ← cp.ev.mulSubTo term ecd wOut
              let eval ← cp.ev.scalarMulTo eval eval b
              cp.ev.addTo eval eval term) s.1
            pure (eval, vecTr, ecdTr)) s = .ok s' ∧
          s'.1.isNTT = true ∧
          StandsFor (2 ^ Ke) (X ^ 2 ^ Ke - 1) (fun i => ge ^ rev Ke i) s'.1
            (horner (C b) (linTerms cp users proj witP vec lin) a) := by
  intro lin
  induction lin with
  | nil => intro _ _ s a h1 h2 _ _; exact ⟨s, rfl, h1, h2⟩
  | cons e lin ih =>
    intro hlin hx s a h1 h2 h3 h4
    obtain ⟨L, l1, l2, l3⟩ := keyTr_spec hlin (e := e) (by simp) s.2.1 vec h3 hvec
    obtain ⟨c, c1, c2, c3⟩ := h.encodeTo_encP s.2.2 _ h4 l3
    have hsf := sf_coeffs (X ^ 2 ^ Ke - 1) (fun i => ge ^ rev Ke i) c c2
    rw [c3] at hsf
    obtain ⟨d, d1, d2, d3⟩ := nttTo_sf h.ev (pOut := ⟨c, false⟩) c2 hsf rfl
    have inner : ∀ (xs : List (Nat × Nat)), (∀ x ∈ xs, x.1 < wCnt ∧ x.2 < wCnt) →
        ∀ (q : Poly (ZMod p)) (a : (ZMod p)[X]), q.isNTT = true →
        StandsFor (2 ^ Ke) (X ^ 2 ^ Ke - 1) (fun i => ge ^ rev Ke i) q a →
        ∃ q', xs.foldlM (fun (eval : Poly (ZMod p)) (w : Nat × Nat) => do
              let wOut ← slot wNTT w.1
              let wIn ← slot wNTT w.2
              let term ← cp.ev.mulTo (newPoly cp.ev.rank true) d wIn
              let term ← cp.ev.mulSubTo term ecd wOut
              let eval ← cp.ev.scalarMulTo eval eval b
              cp.ev.addTo eval eval term) q = .ok q' ∧ q'.isNTT = true ∧
          StandsFor (2 ^ Ke) (X ^ 2 ^ Ke - 1) (fun i => ge ^ rev Ke i) q'
            (horner (C b) (xs.map (fun x => encP cp (keyTr (2 ^ K) users proj e.1 vec) * witP x.2 -
              encP cp vec * witP x.1)) a) := by
      intro xs
      induction xs with
      | nil => intro _ q a h1 h2; exact ⟨q, rfl, h1, h2⟩
      | cons x xs ihx =>
        intro hxs q a hq1 hq2
        obtain ⟨hx1, hx2⟩ := hxs x (by simp)
        obtain ⟨wo, o1, o2, o3⟩ := ht.wit x.1 hx1
        obtain ⟨wi, i1, i2, i3⟩ := ht.wit x.2 hx2
        obtain ⟨t, t1, t2, t3⟩ := mulTo_sf h.ev (pOut := newPoly cp.ev.rank true)
          (by simp [newPoly, h.ev.rank]) d3 i3 d2 i2
        obtain ⟨u, u1, u2, u3⟩ := mulSubTo_sf h.ev t3 hecd o3 t2 necd o2
        obtain ⟨m, m1, m2, m3⟩ := scalarMulTo_sf h.ev b hq2.1 hq2
        obtain ⟨r, r1, r2, r3⟩ := addTo_sf h.ev m3.1 m3 u3 (by rw [m2, hq1, u2])
        obtain ⟨q', q1, q2, q3⟩ := ihx (fun y hy => hxs y (by simp [hy])) r _
          (by rw [r2, m2, hq1]) r3
        refine ⟨q', ?_, q2, q3⟩
        rw [List.foldlM_cons, o1, go_bind_ok, i1, go_bind_ok, t1, go_bind_ok, u1, go_bind_ok, m1,
          go_bind_ok, r1, go_bind_ok, q1]
    obtain ⟨q, q1, q2, q3⟩ := inner e.2 (hx e (by simp)) s.1 a h1 h2
    obtain ⟨s', s1, s2, s3⟩ := ih (fun f hf => hlin f (by simp [hf])) (fun f hf => hx f (by simp [hf]))
      (q, keyTr (2 ^ K) users proj e.1 vec, d) _ q2 q3 l3 d3.1
    refine ⟨s', ?_, s2, ?_⟩
    · rw [List.foldlM_cons, l1, go_bind_ok, l2, go_bind_ok, c1, go_bind_ok, d1, go_bind_ok, q1,
        go_bind_ok, go_pure, go_bind_ok, s1]
    · have : linTerms cp users proj witP vec (e :: lin) =
          e.2.map (fun x => encP cp (keyTr (2 ^ K) users proj e.1 vec) * witP x.2 -
              encP cp vec * witP x.1) ++ linTerms cp users proj witP vec lin := by
        unfold linTerms; rw [List.flatMap_cons, h.rank]
      rw [this, horner_append]
      exact s3

/-- Degrees in the linear check stay below twice the rank. -/
theorem horner_degree {m : Nat} (b : ZMod p) (ts : List (ZMod p)[X]) (a : (ZMod p)[X])
    (ha : a.degree < (m : WithBot ℕ)) (ht : ∀ t ∈ ts, t.degree < (m : WithBot ℕ)) :
    (horner (C b) ts a).degree < (m : WithBot ℕ) := by
  induction ts generalizing a with
  | nil => exact ha
  | cons t ts ih =>
    refine ih _ ?_ (fun u hu => ht u (by simp [hu]))
    refine lt_of_le_of_lt (degree_add_le _ _) (max_lt ?_ (ht t (by simp)))
    by_cases hb : b = 0
    · simp only [hb, C_0, zero_mul, degree_zero]; exact WithBot.bot_lt_coe m
    · rwa [degree_C_mul hb]

theorem degree_lt_of_natDegree_lt {f : (ZMod p)[X]} {m : Nat} (h : f.natDegree < m) :
    f.degree < (m : WithBot ℕ) := lt_of_le_of_lt degree_le_natDegree (by exact_mod_cast h)

theorem degree_C_mul_lt {f : (ZMod p)[X]} {m : Nat} (b : ZMod p) (h : f.degree < (m : WithBot ℕ)) :
    (C b * f).degree < (m : WithBot ℕ) := by
  by_cases hb : b = 0
  · simp only [hb, C_0, zero_mul, degree_zero]; exact WithBot.bot_lt_coe m
  · rwa [degree_C_mul hb]

theorem linTerms_degree (h : GoodCp K Ke g ge cp) {wCnt : Nat} {witP : Nat → (ZMod p)[X]}
    (hw : ∀ i < wCnt, (witP i).natDegree ≤ 2 ^ K)
    {users : Nat → LinearChecker (ZMod p)} {proj : List (List Bool)} (vec : List (ZMod p))
    (hvec : vec.length = 2 ^ K)
    (lin : List (CheckerKey × List (Nat × Nat))) (hlin : LinOK (2 ^ K) users proj lin)
    (hx : ∀ e ∈ lin, ∀ x ∈ e.2, x.1 < wCnt ∧ x.2 < wCnt) :
    ∀ t ∈ linTerms cp users proj witP vec lin, t.degree < ((2 * 2 ^ K : Nat) : WithBot ℕ) := by
  intro t ht
  unfold linTerms at ht
  rw [List.mem_flatMap] at ht
  obtain ⟨e, he, ht⟩ := ht
  rw [List.mem_map] at ht
  obtain ⟨x, hxe, rfl⟩ := ht
  obtain ⟨hx1, hx2⟩ := hx e he x hxe
  have hN := Nat.two_pow_pos K
  obtain ⟨-, -, -, hl⟩ := keyTr_spec hlin he (List.replicate (2 ^ K) 0) vec (by simp) hvec
  apply degree_lt_of_natDegree_lt
  refine lt_of_le_of_lt (natDegree_sub_le _ _) (max_lt ?_ ?_)
  · refine lt_of_le_of_lt natDegree_mul_le ?_
    have h1 := h.encP_degree (keyTr cp.ctx.rank users proj e.1 vec) (by rw [h.rank]; exact hl)
    have h2 := hw x.2 hx2
    omega
  · refine lt_of_le_of_lt natDegree_mul_le ?_
    have h1 := h.encP_degree vec hvec
    have h2 := hw x.1 hx1
    omega

theorem GoodCp.lin_emb (h : GoodCp K Ke g ge cp) : 2 * 2 ^ K ≤ 2 ^ Ke := by
  have h2 := (Nat.pow_lt_pow_iff_right (show 1 < 2 by norm_num)).mp h.lt
  rw [← pow_succ']
  exact Nat.pow_le_pow_right (by norm_num) h2

/-- Dividing by the vanishing polynomial and splitting the remainder: shared by both checks. -/
theorem GoodCp.split (h : GoodCp K Ke g ge cp) {jrank m : Nat} (hj : 2 ^ K - 1 ≤ jrank)
    (hm1 : 2 ^ K ≤ m) (hm2 : m ≤ 2 ^ Ke) (v : List (ZMod p)) (hv : v.length = 2 ^ Ke)
    (hd : (listPoly v).degree < (m : WithBot ℕ)) :
    ∃ qr remLo remHi quo, cp.ev.quoRemByVanishing ⟨v, false⟩ (2 ^ K) = .ok qr ∧
      splitRem (2 ^ K) jrank qr.2 = .ok (remLo, remHi) ∧
      sliceTo qr.1.coeffs m (2 ^ K) = .ok quo ∧
      remLo.length = 2 ^ K - 1 ∧ remHi.length = jrank ∧ quo.length = m - 2 ^ K ∧
      qr.1.coeffs.length = 2 ^ Ke ∧ listPoly qr.1.coeffs = listPoly quo ∧
      listPoly v = listPoly quo * (X ^ 2 ^ K - 1) + X * listPoly remLo +
        C ((listPoly v %ₘ (X ^ 2 ^ K - 1)).coeff 0) ∧
      listPoly remHi = X ^ (jrank - (2 ^ K - 1)) * listPoly remLo := by
  obtain ⟨quo, rem, r1, r2, r3, r4, r5⟩ := h.quoRem v hv
  have hN := Nat.two_pow_pos K
  have hl := h.lt
  have hrd : ∀ i, 2 ^ K ≤ i → rem.getD i 0 = 0 := by
    intro i hi
    rw [← listPoly_coeff, r5]
    apply coeff_eq_zero_of_degree_lt
    refine lt_of_lt_of_le (degree_modByMonic_lt _ (X_pow_sub_one_monic _ hN.ne')) ?_
    rw [X_pow_sub_one_degree _ hN]
    exact_mod_cast hi
  obtain ⟨lo, hi, s1, s2, s3, s4, s5⟩ := splitRem_spec (2 ^ K) jrank hN hj rem (by omega) hrd
  have hlen : m - 2 ^ K ≤ quo.length := by rw [r2]; exact le_trans (Nat.sub_le _ _) hm2
  have htake : listPoly (quo.take (m - 2 ^ K)) = listPoly quo := by
    apply listPoly_take
    rw [r4]
    exact divByMonic_degree _ _ _ hN hm1 hd
  refine ⟨_, lo, hi, quo.take (m - 2 ^ K), r1, s1, sliceTo_ok _ _ _ hm1 hlen, s2, s3, ?_, r2,
    htake.symm, ?_, s5⟩
  · rw [List.length_take]; exact Nat.min_eq_left hlen
  · rw [htake, r4, ← r5, listPoly_coeff]
    have := modByMonic_add_div (listPoly v) (X ^ 2 ^ K - 1)
    rw [← r5, s4] at this
    conv_lhs => rw [← this]
    ring

theorem linCheckP_spec (h : GoodCp K Ke g ge cp) {pwCnt wCnt jrank : Nat}
    {pwNTT : List (Poly (ZMod p))} {wNTT : List (Option (Poly (ZMod p)))}
    {pubP witP : Nat → (ZMod p)[X]}
    (ht : NttTables Ke (X ^ 2 ^ Ke - 1) (fun i => ge ^ rev Ke i) pwCnt wCnt pwNTT wNTT pubP witP)
    (hw : ∀ i < wCnt, (witP i).natDegree ≤ 2 ^ K)
    {users : Nat → LinearChecker (ZMod p)} {proj : List (List Bool)}
    (hlin : LinOK (2 ^ K) users proj cp.ctx.lin)
    (hx : ∀ e ∈ cp.ctx.lin, ∀ x ∈ e.2, x.1 < wCnt ∧ x.2 < wCnt)
    (hj : 2 ^ K - 1 ≤ jrank) (b lc : ZMod p) (mask : List (ZMod p)) (hm : mask.length = 2 ^ Ke)
    (hmd : (listPoly mask).degree < ((2 * 2 ^ K : Nat) : WithBot ℕ)) :
    ∃ quo remLo remHi, linCheckP cp users proj jrank b lc ⟨mask, false⟩ wNTT =
        .ok (quo, remLo, remHi) ∧
      quo.length = 2 ^ K ∧ remLo.length = 2 ^ K - 1 ∧ remHi.length = jrank ∧
      ∃ f, f = C b * horner (C b) (linTerms cp users proj witP
          ((List.range (2 ^ K)).map (fun i => lc ^ i)) cp.ctx.lin) 0 + listPoly mask ∧
        f = listPoly quo * (X ^ 2 ^ K - 1) + X * listPoly remLo +
          C ((f %ₘ (X ^ 2 ^ K - 1)).coeff 0) ∧
        listPoly remHi = X ^ (jrank - (2 ^ K - 1)) * listPoly remLo := by
  set vec : List (ZMod p) := (List.range (2 ^ K)).map (fun i => lc ^ i) with hvec
  have hvl : vec.length = 2 ^ K := by simp [hvec]
  obtain ⟨c, c1, c2, c3⟩ := h.encode_encP vec hvl
  have hsf := sf_coeffs (X ^ 2 ^ Ke - 1) (fun i => ge ^ rev Ke i) c c2
  rw [c3] at hsf
  obtain ⟨d, d1, d2, d3⟩ := nttTo_sf h.ev (pOut := ⟨c, false⟩) c2 hsf rfl
  obtain ⟨s, s1, s2, s3⟩ := linLoop_spec h ht vec hvl d d3 d2 b cp.ctx.lin hlin hx
    (newPoly cp.ev.rank true, List.replicate cp.ctx.rank 0, newPoly cp.ev.rank false) 0 rfl
    (by rw [h.ev.rank]; exact sf_zero_ntt _ _ _) (by simp [h.rank]) (by simp [newPoly, h.ev.rank])
  obtain ⟨t, t1, t2, t3⟩ := scalarMulTo_sf h.ev b s3.1 s3
  obtain ⟨u, u1, u2, u3⟩ := invNTTTo_sf h.ev t3.1 t3 (by rw [t2, s2])
  obtain ⟨⟨w, nw⟩, w1, w2, w3⟩ := addTo_sf h.ev u3.1 u3
    (sf_coeffs (X ^ 2 ^ Ke - 1) (fun i => ge ^ rev Ke i) mask hm) (by rw [u2])
  rw [u2] at w2; simp only at w2; subst w2
  set f := C b * horner (C b) (linTerms cp users proj witP vec cp.ctx.lin) 0 + listPoly mask with hf
  have hfd : f.degree < ((2 * 2 ^ K : Nat) : WithBot ℕ) := by
    refine lt_of_le_of_lt (degree_add_le _ _) (max_lt (degree_C_mul_lt b ?_) hmd)
    exact horner_degree b _ _ (by rw [degree_zero]; exact WithBot.bot_lt_coe _)
      (linTerms_degree h hw vec hvl _ hlin hx)
  have hemb := h.lin_emb
  have hex := sf_exact h.ev w3 rfl (lt_of_lt_of_le hfd (by exact_mod_cast hemb))
  simp only at hex
  have hN := Nat.two_pow_pos K
  obtain ⟨qr, remLo, remHi, quo, a1, a2, a3, a4, a5, a6, a7, a8, a9, a10⟩ := h.split (jrank := jrank)
    (m := 2 * 2 ^ K) hj (by omega) hemb w w3.1 (by rw [hex]; exact hfd)
  rw [hex] at a9
  have htake : listPoly (qr.1.coeffs.take (2 ^ K)) = listPoly quo := by
    rw [listPoly_take, a8]
    rw [a8]
    have := listPoly_degree quo
    rw [a6] at this
    refine lt_of_lt_of_le this ?_
    exact_mod_cast (by omega : 2 * 2 ^ K - 2 ^ K ≤ 2 ^ K)
  have hle2 : 2 ^ K ≤ qr.1.coeffs.length := by rw [a7]; omega
  refine ⟨qr.1.coeffs.take (2 ^ K), remLo, remHi, ?_, ?_, a4, a5, f, rfl, ?_, a10⟩
  · unfold linCheckP
    rw [h.rank, powerVec_spec _ hN, go_bind_ok, ← hvec, c1, go_bind_ok, d1, go_bind_ok]
    rw [h.rank] at s1
    rw [s1, go_bind_ok, t1, go_bind_ok, u1, go_bind_ok, w1, go_bind_ok, a1, go_bind_ok, a2,
      go_bind_ok, sliceTo_ok _ _ _ (Nat.zero_le _) (by simpa using hle2), go_bind_ok]
    rfl
  · rw [List.length_take]; exact Nat.min_eq_left hle2
  · rw [htake]; exact a9

end

end Ringo
