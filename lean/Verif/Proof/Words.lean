import Verif.Spec.Words
import Verif.Model.JLimbs
import Verif.Proof.JFloat
import Verif.Proof.Vec
import Mathlib.Analysis.SpecificLimits.Basic
import Mathlib.MeasureTheory.Measure.Prod

/-!
# Uniform draws from a stream of words
-/

namespace Ringo

open MeasureTheory

section
variable {Ω : Type} [MeasurableSpace Ω] (μ : Measure Ω) [IsProbabilityMeasure μ]

instance : IsProbabilityMeasure (stream μ) := by unfold stream; infer_instance

/-- A stream with a new first element. -/
def consN (x : Ω × (ℕ → Ω)) : ℕ → Ω
  | 0 => x.1
  | i + 1 => x.2 i

theorem consN_measurable : Measurable (consN : Ω × (ℕ → Ω) → ℕ → Ω) := by
  rw [measurable_pi_iff]
  intro i
  cases i with
  | zero => exact measurable_fst
  | succ i => exact (measurable_pi_apply i).comp measurable_snd

theorem map_consN : (μ.prod (stream μ)).map consN = stream μ := by
  unfold stream
  apply Measure.eq_infinitePi
  intro s t ht
  classical
  obtain ⟨n, hn⟩ : ∃ n, s ⊆ Finset.range (n + 1) := by
    refine ⟨s.sup id, fun i hi => ?_⟩
    rw [Finset.mem_range]
    exact Nat.lt_succ_of_le (Finset.le_sup (f := id) hi)
  set t' : ℕ → Set Ω := fun i => if i ∈ s then t i else Set.univ with ht'
  have htm : ∀ i, MeasurableSet (t' i) := by
    intro i
    simp only [ht']
    split
    · exact ht i
    · exact MeasurableSet.univ
  have h1 : Set.pi (s : Set ℕ) t = Set.pi (Finset.range (n + 1) : Set ℕ) t' := by
    ext ω
    simp only [Set.mem_pi, Finset.mem_coe]
    constructor
    · intro h i _
      simp only [ht']
      split
      · rename_i hi; exact h i hi
      · trivial
    · intro h i hi
      have := h i (hn hi)
      simp only [ht', if_pos hi] at this
      exact this
  have h2 : ∏ i ∈ s, μ (t i) = ∏ i ∈ Finset.range (n + 1), μ (t' i) := by
    rw [← Finset.prod_subset hn]
    · apply Finset.prod_congr rfl
      intro i hi
      simp only [ht', if_pos hi]
    · intro i _ hi
      simp only [ht', if_neg hi, measure_univ]
  have h3 : consN ⁻¹' (Set.pi (Finset.range (n + 1) : Set ℕ) t') =
      t' 0 ×ˢ Set.pi (Finset.range n : Set ℕ) (fun i => t' (i + 1)) := by
    ext x
    simp only [Set.mem_preimage, Set.mem_pi, Finset.mem_coe, Finset.mem_range, Set.mem_prod]
    constructor
    · intro h
      exact ⟨h 0 (by omega), fun i hi => h (i + 1) (by omega)⟩
    · rintro ⟨h, h'⟩ i hi
      cases i with
      | zero => exact h
      | succ i => exact h' i (by omega)
  rw [h1, h2, Measure.map_apply consN_measurable (MeasurableSet.pi (Finset.countable_toSet _) fun i _ => htm i),
    h3, Measure.prod_prod, Measure.infinitePi_pi _ (fun i _ => htm (i + 1)), Finset.prod_range_succ', mul_comm]

theorem dropN_measurable (k : ℕ) : Measurable (dropN k : (ℕ → Ω) → ℕ → Ω) := by
  rw [measurable_pi_iff]
  intro i
  exact measurable_pi_apply (k + i)

/-- The first element is independent of the rest. -/
theorem stream_head {C : Set Ω} (hC : MeasurableSet C) {B : Set (ℕ → Ω)} (hB : MeasurableSet B) :
    stream μ {ω | ω 0 ∈ C ∧ dropN 1 ω ∈ B} = μ C * stream μ B := by
  have hm : MeasurableSet {ω : ℕ → Ω | ω 0 ∈ C ∧ dropN 1 ω ∈ B} :=
    (measurable_pi_apply 0 hC).inter (dropN_measurable 1 hB)
  rw [← map_consN μ, Measure.map_apply consN_measurable hm]
  have : consN ⁻¹' {ω : ℕ → Ω | ω 0 ∈ C ∧ dropN 1 ω ∈ B} = C ×ˢ B := by
    ext x
    have : dropN 1 (consN x) = x.2 := by
      funext i
      unfold dropN
      rw [Nat.add_comm]
      rfl
    simp only [Set.mem_preimage, Set.mem_ofPred_eq, Set.mem_prod, this]
    rfl
  rw [this, Measure.prod_prod, map_consN μ]

/-- The streams that start with `m` elements of `R` and one of `C`, and go on in `B`. -/
def firstAt (R C : Set Ω) (B : Set (ℕ → Ω)) (m : ℕ) : Set (ℕ → Ω) :=
  {ω | (∀ i < m, ω i ∈ R) ∧ ω m ∈ C ∧ dropN (m + 1) ω ∈ B}

theorem firstAt_meas {R C : Set Ω} (hR : MeasurableSet R) (hC : MeasurableSet C) {B : Set (ℕ → Ω)}
    (hB : MeasurableSet B) (m : ℕ) : MeasurableSet (firstAt R C B m) := by
  have : firstAt R C B m = (⋂ i ∈ Finset.range m, (fun ω : ℕ → Ω => ω i) ⁻¹' R) ∩
      ((fun ω : ℕ → Ω => ω m) ⁻¹' C ∩ dropN (m + 1) ⁻¹' B) := by
    ext ω
    simp [firstAt]
  rw [this]
  exact (Finset.measurableSet_biInter _ fun i _ => measurable_pi_apply i hR).inter
    ((measurable_pi_apply m hC).inter (dropN_measurable _ hB))

theorem firstAt_law {R C : Set Ω} (hR : MeasurableSet R) (hC : MeasurableSet C) {B : Set (ℕ → Ω)}
    (hB : MeasurableSet B) (m : ℕ) : stream μ (firstAt R C B m) = μ R ^ m * (μ C * stream μ B) := by
  induction m with
  | zero =>
    rw [pow_zero, one_mul, ← stream_head μ hC hB]
    congr 1
    ext ω
    simp [firstAt]
  | succ m ih =>
    rw [pow_succ', mul_assoc, ← ih, ← stream_head μ hR (firstAt_meas hR hC hB m)]
    congr 1
    ext ω
    have hd : dropN (m + 1) (dropN 1 ω) = dropN (m + 1 + 1) ω := by
      funext i
      unfold dropN
      congr 1
      omega
    simp only [firstAt, Set.mem_ofPred_eq, hd]
    constructor
    · rintro ⟨h1, h2, h3⟩
      refine ⟨h1 0 (by omega), fun i hi => h1 (1 + i) (by omega), ?_, h3⟩
      unfold dropN
      rw [Nat.add_comm]
      exact h2
    · rintro ⟨h1, h2, h3, h4⟩
      refine ⟨fun i hi => ?_, ?_, h4⟩
      · cases i with
        | zero => exact h1
        | succ i =>
          have := h2 i (by omega)
          unfold dropN at this
          rwa [Nat.add_comm] at this
      · unfold dropN at h3
        rwa [Nat.add_comm] at h3

omit [MeasurableSpace Ω] in
theorem firstAt_disjoint {R C : Set Ω} (h : Disjoint R C) (B : Set (ℕ → Ω)) :
    Pairwise (Function.onFun Disjoint (firstAt R C B)) := by
  have key : ∀ m n, m < n → Disjoint (firstAt R C B m) (firstAt R C B n) := by
    intro m n hmn
    rw [Set.disjoint_left]
    rintro ω ⟨-, h1, -⟩ ⟨h2, -, -⟩
    exact Set.disjoint_left.mp h (h2 m hmn) h1
  intro m n hmn
  rcases lt_or_gt_of_ne hmn with h | h
  · exact key m n h
  · exact (key n m h).symm

theorem firstAt_sum {R C : Set Ω} (hR : MeasurableSet R) (hC : MeasurableSet C) (h : Disjoint R C)
    {B : Set (ℕ → Ω)} (hB : MeasurableSet B) :
    stream μ (⋃ m, firstAt R C B m) = μ C * stream μ B / μ Rᶜ := by
  rw [measure_iUnion (firstAt_disjoint h B) fun m => firstAt_meas hR hC hB m]
  simp_rw [firstAt_law μ hR hC hB]
  rw [ENNReal.tsum_mul_right, ENNReal.tsum_geometric, measure_compl hR (measure_ne_top _ _), measure_univ,
    ENNReal.div_eq_inv_mul]

end


theorem dropN_dropN {Ω : Type} (k l : ℕ) (ω : ℕ → Ω) : dropN l (dropN k ω) = dropN (k + l) ω := by
  funext i
  unfold dropN
  congr 1
  omega

theorem dropN_zero {Ω : Type} (ω : ℕ → Ω) : dropN 0 ω = ω := by
  funext i
  unfold dropN
  rw [Nat.zero_add]

/-! ## `SampleN` -/

theorem word64_apply (C : Set ℕ) [DecidablePred (· ∈ C)] :
    word64 C = (((Finset.range (2 ^ 64)).filter (· ∈ C)).card : ENNReal) / (2 ^ 64 : ℕ) := by
  classical
  unfold word64
  rw [PMF.toMeasure_uniformOfFinset_apply _ _ (MeasurableSet.of_discrete)]
  rw [Finset.card_range]
  congr!

theorem sampleNBound_eq {n : ℕ} (hn : 1 ≤ n) (hn2 : n < 2 ^ 64) :
    ∃ c, 1 ≤ c ∧ n * c < 2 ^ 64 ∧ sampleNBound n = .ok (n * c) := by
  refine ⟨(2 ^ 64 - 1) / n, Nat.div_pos (by omega) (by omega), ?_, ?_⟩
  · have := Nat.mul_div_le (2 ^ 64 - 1) n
    omega
  · unfold sampleNBound
    rw [if_neg (by omega)]
    have := Nat.div_add_mod (2 ^ 64 - 1) n
    show Except.ok _ = _
    congr 1
    omega

theorem residue_card {n c : ℕ} (h : n * c ≤ 2 ^ 64) {r : ℕ} (hr : r < n) :
    ((Finset.range (2 ^ 64)).filter fun w => w < n * c ∧ w % n = r).card = c := by
  have : (Finset.range (2 ^ 64)).filter (fun w => w < n * c ∧ w % n = r)
      = (Finset.range c).image (fun q => n * q + r) := by
    ext w
    simp only [Finset.mem_filter, Finset.mem_range, Finset.mem_image]
    constructor
    · rintro ⟨-, hw, hwk⟩
      refine ⟨w / n, Nat.div_lt_of_lt_mul hw, ?_⟩
      have := Nat.div_add_mod w n; omega
    · rintro ⟨q, hq, rfl⟩
      have h3 : n * (q + 1) ≤ n * c := Nat.mul_le_mul_left n hq
      rw [Nat.mul_add] at h3
      refine ⟨by omega, by omega, ?_⟩
      rw [Nat.mul_add_mod, Nat.mod_eq_of_lt hr]
  rw [this, Finset.card_image_of_injective, Finset.card_range]
  intro a b hab
  have : n * a = n * b := by simpa using hab
  exact Nat.eq_of_mul_eq_mul_left (by omega) this

theorem sampleNAt_iff {n b : ℕ} (hb : sampleNBound n = .ok b) (w : ℕ → ℕ) (pos r k : ℕ) :
    sampleNAt w pos n = .ok (r, k) ↔
      ∃ i, pos ≤ i ∧ k = i + 1 ∧ w i < b ∧ w i % n = r ∧ ∀ j, pos ≤ j → j < i → ¬ w j < b := by
  unfold sampleNAt
  rw [hb, go_bind_ok]
  constructor
  · intro h
    obtain ⟨i, h1, h2, h3⟩ := forever_ok_inv h
    have h2 := Except.ok.inj h2
    split at h2
    · rename_i hlt
      have h2 := Option.some.inj h2
      rw [Prod.mk.injEq] at h2
      refine ⟨i, h1, h2.2.symm, hlt, h2.1, fun j hj1 hj2 hlt' => ?_⟩
      have := Except.ok.inj (h3 j hj1 hj2)
      rw [if_pos hlt'] at this
      cases this
    · cases h2
  · rintro ⟨i, h1, rfl, h2, rfl, h3⟩
    refine forever_ok h1 ?_ ?_
    · rw [if_pos h2]; rfl
    · intro j hj1 hj2
      rw [if_neg (h3 j hj1 hj2)]; rfl

theorem sampleNAt_set {n b : ℕ} (hb : sampleNBound n = .ok b) (r : ℕ) (B : Set (ℕ → ℕ)) :
    {ω | ∃ k, sampleNAt ω 0 n = .ok (r, k) ∧ dropN k ω ∈ B} =
      ⋃ m, firstAt {x | ¬ x < b} {x | x < b ∧ x % n = r} B m := by
  ext ω
  simp only [Set.mem_ofPred_eq, Set.mem_iUnion, firstAt]
  constructor
  · rintro ⟨k, h1, h2⟩
    obtain ⟨i, -, rfl, h3, h4, h5⟩ := (sampleNAt_iff hb ω 0 r k).mp h1
    exact ⟨i, fun j hj => h5 j (Nat.zero_le _) hj, ⟨h3, h4⟩, h2⟩
  · rintro ⟨m, h1, ⟨h2, h3⟩, h4⟩
    exact ⟨m + 1, (sampleNAt_iff hb ω 0 r _).mpr ⟨m, Nat.zero_le _, rfl, h2, h3, fun j _ hj => h1 j hj⟩, h4⟩

/-- The only fault of `SampleN` is not to return. -/
theorem sampleNAt_or {n b : ℕ} (hb : sampleNBound n = .ok b) (w : ℕ → ℕ) (pos : ℕ) :
    (∃ r, sampleNAt w pos n = .ok r) ∨
      (sampleNAt w pos n = .error .hang ∧ ∀ i, pos ≤ i → ¬ w i < b) := by
  classical
  by_cases hex : ∃ i, pos ≤ i ∧ w i < b
  · left
    obtain ⟨f1, f2⟩ := Nat.find_spec hex
    exact ⟨_, (sampleNAt_iff hb w pos _ _).mpr ⟨Nat.find hex, f1, rfl, f2, rfl, fun j hj1 hj2 hlt =>
      Nat.find_min hex hj2 ⟨hj1, hlt⟩⟩⟩
  · right
    push Not at hex
    refine ⟨?_, fun i hi => not_lt.mpr (hex i hi)⟩
    unfold sampleNAt
    rw [hb, go_bind_ok]
    apply forever_hang
    intro i hi
    rw [if_neg (not_lt.mpr (hex i hi))]
    rfl

/-- `SampleN` is uniform. -/
theorem sampleNAt_draws {n : ℕ} (hn : 1 ≤ n) (hn2 : n < 2 ^ 64) :
    Draws (fun w pos => sampleNAt w pos n) {x | x < n} n := by
  classical
  obtain ⟨c, hc, hlt, hb⟩ := sampleNBound_eq hn hn2
  have hdisj : ∀ r, Disjoint {x : ℕ | ¬ x < n * c} {x | x < n * c ∧ x % n = r} := by
    intro r
    rw [Set.disjoint_left]
    rintro x h1 ⟨h2, -⟩
    exact h1 h2
  have hne : ∀ x : ENNReal, x = (2 ^ 64 : ℕ) → x ≠ 0 ∧ x ≠ ⊤ := by
    rintro x rfl
    exact ⟨by simp, ENNReal.natCast_ne_top _⟩
  have hacc : word64 {x | ¬ x < n * c}ᶜ = ((n * c : ℕ) : ENNReal) / (2 ^ 64 : ℕ) := by
    have : (Finset.range (2 ^ 64)).filter (· ∈ {x | ¬ x < n * c}ᶜ) = Finset.range (n * c) := by
      ext w
      simp only [Finset.mem_filter, Finset.mem_range, Set.mem_compl_iff, Set.mem_ofPred_eq, not_not]
      omega
    rw [word64_apply, this, Finset.card_range]
  have hone : ∀ r < n, word64 {x | x < n * c ∧ x % n = r} = (c : ENNReal) / (2 ^ 64 : ℕ) := by
    intro r hr
    have := residue_card hlt.le hr
    rw [word64_apply]
    simp only [Set.mem_ofPred_eq]
    rw [this]
  have hc0 : (c : ENNReal) ≠ 0 := by exact_mod_cast (by omega : c ≠ 0)
  have hct : (c : ENNReal) ≠ ⊤ := ENNReal.natCast_ne_top _
  have hn0 : (n : ENNReal) ≠ 0 := by exact_mod_cast (by omega : n ≠ 0)
  obtain ⟨hd0, hdt⟩ := hne _ rfl
  refine ⟨?_, ?_, ?_, ?_, ?_⟩
  · intro w pos
    have hiff : ∀ r k, sampleNAt w pos n = .ok (r, pos + k) ↔ sampleNAt (dropN pos w) 0 n = .ok (r, k) := by
      intro r k
      rw [sampleNAt_iff hb, sampleNAt_iff hb]
      constructor
      · rintro ⟨i, h1, h2, h3, h4, h5⟩
        refine ⟨i - pos, Nat.zero_le _, by omega, ?_, ?_, fun j _ hj => h5 (pos + j) (by omega) (by omega)⟩
        · unfold dropN; rwa [Nat.add_sub_cancel' h1]
        · unfold dropN; rwa [Nat.add_sub_cancel' h1]
      · rintro ⟨i, -, h2, h3, h4, h5⟩
        refine ⟨pos + i, by omega, by omega, h3, h4, fun j h6 h7 => ?_⟩
        have := h5 (j - pos) (Nat.zero_le _) (by omega)
        unfold dropN at this
        rwa [Nat.add_sub_cancel' h6] at this
    rcases sampleNAt_or hb (dropN pos w) 0 with ⟨⟨r, k⟩, h⟩ | ⟨h, h'⟩
    · rw [h, (hiff r k).mpr h]
      rfl
    · rw [h]
      rcases sampleNAt_or hb w pos with ⟨⟨r, k⟩, h2⟩ | ⟨h2, -⟩
      · obtain ⟨i, h3, -, h4, -⟩ := (sampleNAt_iff hb w pos r k).mp h2
        refine absurd ?_ (h' (i - pos) (Nat.zero_le _))
        unfold dropN
        rwa [Nat.add_sub_cancel' h3]
      · rw [h2]; rfl
  · rintro w pos ⟨r, k⟩ h
    obtain ⟨i, -, -, -, rfl, -⟩ := (sampleNAt_iff hb w pos r k).mp h
    exact Nat.mod_lt _ (by omega)
  · have h1 : stream word64 (⋃ m, firstAt {x | ¬ x < n * c} {x | x < n * c} Set.univ m) = 1 := by
      rw [firstAt_sum word64 MeasurableSet.of_discrete MeasurableSet.of_discrete _ MeasurableSet.univ]
      · have : {x : ℕ | ¬ x < n * c}ᶜ = {x | x < n * c} := by ext; simp
        rw [measure_univ, mul_one, this]
        rw [this] at hacc
        apply ENNReal.div_self
        · rw [hacc]
          apply (ENNReal.div_pos _ hdt).ne'
          push_cast
          exact mul_ne_zero hn0 hc0
        · exact measure_ne_top _ _
      · rw [Set.disjoint_left]
        exact fun x h1 h2 => h1 h2
    rw [← prob_compl_eq_zero_iff (MeasurableSet.iUnion fun m => firstAt_meas MeasurableSet.of_discrete
      MeasurableSet.of_discrete MeasurableSet.univ m)] at h1
    rw [Filter.Eventually, mem_ae_iff]
    refine measure_mono_null ?_ h1
    intro ω h2 h3
    apply h2
    rcases sampleNAt_or hb ω 0 with h4 | ⟨-, h4⟩
    · exact h4
    · obtain ⟨m, -, h5, -⟩ := Set.mem_iUnion.mp h3
      exact absurd h5 (h4 m (Nat.zero_le _))
  · intro r hr B hB
    rw [sampleNAt_set hb]
    exact MeasurableSet.iUnion fun m => firstAt_meas MeasurableSet.of_discrete MeasurableSet.of_discrete hB m
  · intro r hr B hB
    rw [sampleNAt_set hb, firstAt_sum word64 MeasurableSet.of_discrete MeasurableSet.of_discrete (hdisj r) hB,
      hacc, hone r hr, Nat.cast_mul]
    rw [mul_comm ((c : ENNReal) / _), mul_div_assoc, mul_comm]
    congr 1
    rw [ENNReal.div_eq_inv_mul, ENNReal.div_eq_inv_mul, ENNReal.div_eq_inv_mul, ENNReal.mul_inv
      (.inl (ENNReal.inv_ne_zero.mpr hdt)) (.inl (ENNReal.inv_ne_top.mpr hd0)), inv_inv,
      ENNReal.mul_inv (.inl hn0) (.inl (ENNReal.natCast_ne_top _))]
    calc ((2 ^ 64 : ℕ) : ENNReal) * ((n : ENNReal)⁻¹ * (c : ENNReal)⁻¹) * (((2 ^ 64 : ℕ) : ENNReal)⁻¹ * c)
        = (((2 ^ 64 : ℕ) : ENNReal) * ((2 ^ 64 : ℕ) : ENNReal)⁻¹) * ((c : ENNReal) * (c : ENNReal)⁻¹) *
          (n : ENNReal)⁻¹ := by ring
      _ = (n : ENNReal)⁻¹ := by
        rw [ENNReal.mul_inv_cancel hd0 hdt, ENNReal.mul_inv_cancel hc0 hct, one_mul, one_mul]

/-! ## Programs that draw -/

/-- Returning without drawing. -/
theorem Draws.pure {α : Type} (a : α) : Draws (fun _ pos => .ok (a, pos)) {a} 1 := by
  refine ⟨fun w pos => rfl, ?_, Filter.Eventually.of_forall fun ω => ⟨_, rfl⟩, ?_, ?_⟩
  · intro w pos r h
    rw [← Except.ok.inj h]
    rfl
  all_goals
    intro b hb B hB
    obtain rfl : b = a := hb
    have : {ω : ℕ → ℕ | ∃ k, (Except.ok (b, 0) : Go (α × ℕ)) = .ok (b, k) ∧ dropN k ω ∈ B} = B := by
      ext ω
      constructor
      · rintro ⟨k, h, h2⟩
        have := congrArg Prod.snd (Except.ok.inj h)
        dsimp only at this
        rw [← this, dropN_zero] at h2
        exact h2
      · intro h
        exact ⟨0, rfl, by rwa [dropN_zero]⟩
    rw [this]
  · exact hB
  · simp

/-- One program after the other, if the result of the second tells the one of the first. -/
theorem Draws.bind {α β : Type} [Countable α] {c : (ℕ → ℕ) → ℕ → Go (α × ℕ)} {S : Set α} {n : ℕ}
    (hc : Draws c S n) {d : α → (ℕ → ℕ) → ℕ → Go (β × ℕ)} {S2 : α → Set β} {m : ℕ}
    (hd : ∀ a ∈ S, Draws (d a) (S2 a) m) (T : Set β) (hT : ∀ a ∈ S, S2 a ⊆ T)
    (hback : ∀ b ∈ T, ∃ a ∈ S, b ∈ S2 a) (huniq : ∀ a ∈ S, ∀ a' ∈ S, ∀ b, b ∈ S2 a → b ∈ S2 a' → a = a') :
    Draws (fun w pos => do let r ← c w pos; d r.1 w r.2) T (n * m) := by
  have hset : ∀ a ∈ S, ∀ b ∈ S2 a, ∀ B : Set (ℕ → ℕ),
      {ω | ∃ k, (do let r ← c ω 0; d r.1 ω r.2) = .ok (b, k) ∧ dropN k ω ∈ B} =
      {ω | ∃ k, c ω 0 = .ok (a, k) ∧ dropN k ω ∈ {ω' | ∃ k, d a ω' 0 = .ok (b, k) ∧ dropN k ω' ∈ B}} := by
    intro a ha b hb B
    ext ω
    simp only [Set.mem_ofPred_eq]
    constructor
    · rintro ⟨k, h1, h2⟩
      rcases h3 : c ω 0 with e | ⟨a', k1⟩
      · rw [h3] at h1; cases h1
      rw [h3, go_bind_ok] at h1
      have ha' := hc.ran ω 0 _ h3
      have hb' := (hd a' ha').ran _ _ _ h1
      obtain rfl := huniq a ha a' ha' b hb hb'
      refine ⟨k1, rfl, ?_⟩
      dsimp only at h1
      rw [(hd a ha).shift] at h1
      rcases h4 : d a (dropN k1 ω) 0 with e | ⟨b', k2⟩
      · rw [h4] at h1; cases h1
      rw [h4] at h1
      have h5 := Except.ok.inj h1
      rw [Prod.mk.injEq] at h5
      obtain ⟨rfl, rfl⟩ := h5
      exact ⟨k2, rfl, by rwa [dropN_dropN]⟩
    · rintro ⟨k1, h1, k2, h2, h3⟩
      refine ⟨k1 + k2, ?_, by rwa [dropN_dropN] at h3⟩
      rw [h1, go_bind_ok]
      dsimp only
      rw [(hd a ha).shift, h2]
      rfl
  refine ⟨?_, ?_, ?_, ?_, ?_⟩
  · intro w pos
    rw [hc.shift w pos]
    rcases h3 : c (dropN pos w) 0 with e | ⟨a, k⟩
    · rfl
    have ha := hc.ran _ _ _ h3
    show d a w (pos + k) = Except.map _ (d a (dropN pos w) k)
    rw [(hd a ha).shift w, (hd a ha).shift (dropN pos w), dropN_dropN]
    rcases d a (dropN (pos + k) w) 0 with e | ⟨b, k2⟩
    · rfl
    · show Except.ok (b, pos + k + k2) = Except.ok (b, pos + (k + k2))
      rw [Nat.add_assoc]
  · intro w pos r h
    rcases h3 : c w pos with e | ⟨a, k⟩
    · rw [h3] at h; cases h
    rw [h3, go_bind_ok] at h
    have ha := hc.ran _ _ _ h3
    exact hT a ha ((hd a ha).ran _ _ _ h)
  · have hbad : stream word64 (⋃ a ∈ S, {ω | ∃ k, c ω 0 = .ok (a, k) ∧
        dropN k ω ∈ toMeasurable (stream word64) {ω' | ¬ ∃ r, d a ω' 0 = .ok r}}) = 0 := by
      rw [measure_biUnion_null_iff (Set.to_countable S)]
      intro a ha
      rw [hc.law a ha _ (measurableSet_toMeasurable _ _), measure_toMeasurable]
      have := (hd a ha).ends
      rw [ae_iff] at this
      rw [this, mul_zero]
    filter_upwards [hc.ends, (measure_eq_zero_iff_ae_notMem).mp hbad] with ω h1 h2
    obtain ⟨⟨a, k⟩, h1⟩ := h1
    have ha := hc.ran _ _ _ h1
    by_contra h3
    apply h2
    rw [Set.mem_iUnion₂]
    refine ⟨a, ha, k, h1, subset_toMeasurable _ _ ?_⟩
    rintro ⟨r, hr⟩
    apply h3
    rw [h1]
    exact ⟨(r.1, k + r.2), by rw [go_bind_ok]; dsimp only; rw [(hd a ha).shift, hr]; rfl⟩
  · intro b hb B hB
    obtain ⟨a, ha, hab⟩ := hback b hb
    rw [hset a ha b hab B]
    exact hc.meas a ha _ ((hd a ha).meas b hab B hB)
  · intro b hb B hB
    obtain ⟨a, ha, hab⟩ := hback b hb
    rw [hset a ha b hab B, hc.law a ha _ ((hd a ha).meas b hab B hB), (hd a ha).law b hab B hB, ← mul_assoc,
      Nat.cast_mul, ENNReal.mul_inv (.inr (ENNReal.natCast_ne_top _)) (.inl (ENNReal.natCast_ne_top _))]

/-- Change of the result by a function that loses nothing. -/
theorem Draws.map {α β : Type} [Countable α] {c : (ℕ → ℕ) → ℕ → Go (α × ℕ)} {S : Set α} {n : ℕ}
    (hc : Draws c S n) (f : α → β) (hf : ∀ a ∈ S, ∀ a' ∈ S, f a = f a' → a = a') (T : Set β)
    (hT : ∀ b, b ∈ T ↔ ∃ a ∈ S, f a = b) :
    Draws (fun w pos => do let r ← c w pos; Except.ok (f r.1, r.2)) T n := by
  have := hc.bind (d := fun a _ pos => .ok (f a, pos)) (S2 := fun a => {f a}) (m := 1)
    (fun a _ => Draws.pure (f a)) T (fun a ha b hb => (hT b).mpr ⟨a, ha, hb.symm⟩)
    (fun b hb => by obtain ⟨a, ha, h⟩ := (hT b).mp hb; exact ⟨a, ha, h.symm⟩)
    (fun a ha a' ha' b h1 h2 => hf a ha a' ha' (h1.symm.trans h2))
  rwa [mul_one] at this

/-- A loop that draws. -/
theorem Draws.loop {σ : Type} [Countable σ] (body : (ℕ → ℕ) → σ × ℕ → ℕ → Go (σ × ℕ)) (S : ℕ → Set σ)
    (m : ℕ → ℕ) (S2 : ℕ → σ → Set σ) (a0 : σ) (h0 : S 0 = {a0}) : ∀ (n : ℕ),
    (∀ i < n, ∀ s ∈ S i, Draws (fun w pos => body w (s, pos) i) (S2 i s) (m i)) →
    (∀ i < n, ∀ s ∈ S i, S2 i s ⊆ S (i + 1)) → (∀ i < n, ∀ b ∈ S (i + 1), ∃ s ∈ S i, b ∈ S2 i s) →
    (∀ i < n, ∀ s ∈ S i, ∀ s' ∈ S i, ∀ b, b ∈ S2 i s → b ∈ S2 i s' → s = s') →
    Draws (fun w pos => forRange 0 n 1 (a0, pos) (body w)) (S n) (∏ i ∈ Finset.range n, m i) := by
  intro n
  induction n with
  | zero =>
    intro _ _ _ _
    rw [h0]
    exact Draws.pure a0
  | succ n ih =>
    intro h1 h2 h3 h4
    have := (ih (fun i hi => h1 i (by omega)) (fun i hi => h2 i (by omega)) (fun i hi => h3 i (by omega))
      (fun i hi => h4 i (by omega))).bind (h1 n (by omega)) (S (n + 1)) (h2 n (by omega)) (h3 n (by omega))
      (h4 n (by omega))
    rw [Finset.prod_range_succ]
    have heq : (fun w pos => forRange 0 (n + 1) 1 (a0, pos) (body w)) =
        fun w pos => forRange 0 n 1 (a0, pos) (body w) >>= fun r => body w (r.1, r.2) n := by
      funext w pos
      rw [forRange_one, forRange_one, Nat.sub_zero, Nat.sub_zero, List.range'_concat, List.foldlM_append]
      simp
    rw [heq]
    exact this

end Ringo
