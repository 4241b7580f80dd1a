import Verif.Model.Gauss
import Mathlib.MeasureTheory.Integral.IntegralEqImproper
import Mathlib.Analysis.SpecialFunctions.Gaussian.GaussianIntegral
import Mathlib.Analysis.Real.Pi.Bounds
import Mathlib.Tactic.Linarith
import Mathlib.Tactic.Positivity
import Mathlib.Tactic.FieldSimp
import Mathlib.Tactic.NormNum

/-!
# The tables of the ziggurat
-/

namespace Ringo

open Real MeasureTheory

theorem zigNormal_eq (x : ℝ) : zigNormal x = exp (-x ^ 2 / 2) := by
  unfold zigNormal
  congr 1
  ring

theorem zigNormal_pos (x : ℝ) : 0 < zigNormal x := exp_pos _

theorem zigNormal_anti {x y : ℝ} (hx : 0 ≤ x) (h : x ≤ y) : zigNormal y ≤ zigNormal x := by
  rw [zigNormal_eq, zigNormal_eq]
  apply exp_le_exp.2
  nlinarith

theorem zigNormal_anti_strict {x y : ℝ} (hx : 0 ≤ x) (h : x < y) : zigNormal y < zigNormal x := by
  rw [zigNormal_eq, zigNormal_eq]
  apply exp_lt_exp.2
  nlinarith

theorem le_of_zigNormal {x y : ℝ} (hy : 0 ≤ y) (h : zigNormal y ≤ zigNormal x) : x ≤ y := by
  by_contra hcon
  exact absurd h (not_le.2 (zigNormal_anti_strict hy (not_le.1 hcon)))

/-- `normalInv` inverts `normal`. -/
theorem zigNormal_inv {a : ℝ} (h0 : 0 < a) (h1 : a ≤ 1) : zigNormal (zigNormalInv a) = a := by
  rw [zigNormal_eq]
  unfold zigNormalInv
  have hl : log a ≤ 0 := log_nonpos h0.le h1
  rw [sq_sqrt (by linarith)]
  rw [show -(-2 * log a) / 2 = log a by ring, exp_log h0]

theorem zigNormalInv_pos {a : ℝ} (h0 : 0 < a) (h1 : a < 1) : 0 < zigNormalInv a := by
  unfold zigNormalInv
  apply Real.sqrt_pos.2
  linarith [log_neg h0 h1]

/-! ## The area of the tail -/

theorem zigNormal_integrable : Integrable zigNormal := by
  have := integrable_exp_neg_mul_sq (b := 1 / 2) (by norm_num)
  refine this.congr (Filter.Eventually.of_forall fun x => ?_)
  simp only [zigNormal_eq]
  congr 1
  ring

/-- `normalIntegral` is the area under the curve to the right. -/
theorem zigNormalIntegral_eq (x : ℝ) : zigNormalIntegral x = ∫ t in Set.Ioi x, zigNormal t := by
  unfold zigNormalIntegral goErfc
  have h2 : (0 : ℝ) < √2 := by positivity
  have hsub := integral_comp_mul_left_Ioi (fun t => exp (-t ^ 2)) x (b := (√2)⁻¹) (by positivity)
  have e1 : ∀ t : ℝ, exp (-((√2)⁻¹ * t) ^ 2) = zigNormal t := by
    intro t
    rw [zigNormal_eq, mul_pow, inv_pow, sq_sqrt (by norm_num)]
    congr 1
    ring
  simp only [e1] at hsub
  rw [hsub, inv_inv, smul_eq_mul, show (√2)⁻¹ * x = x / √2 by ring, ← mul_assoc]
  congr 1
  rw [Real.sqrt_div pi_pos.le]
  have hp : √π ≠ 0 := by positivity
  field_simp
  rw [sq_sqrt (by norm_num)]

theorem zigNormalIntegral_nonneg (x : ℝ) : 0 ≤ zigNormalIntegral x := by
  rw [zigNormalIntegral_eq]
  exact setIntegral_nonneg measurableSet_Ioi fun t _ => (zigNormal_pos t).le

/-- The tail is at most the height over the distance. -/
theorem zigNormalIntegral_le {x : ℝ} (hx : 0 < x) : zigNormalIntegral x ≤ zigNormal x / x := by
  rw [zigNormalIntegral_eq]
  have hd : ∀ t ∈ Set.Ici x, HasDerivAt (fun t => -zigNormal t / x) (t / x * zigNormal t) t := by
    intro t _
    have h1 : HasDerivAt (fun t : ℝ => exp (-t ^ 2 / 2)) (exp (-t ^ 2 / 2) * (-(2 * t) / 2)) t := by
      have h2 : HasDerivAt (fun t : ℝ => -t ^ 2 / 2) (-(2 * t) / 2) t := by
        have := ((hasDerivAt_pow 2 t).neg).div_const 2
        simpa using this
      exact h2.exp
    have h3 : HasDerivAt zigNormal (zigNormal t * (-(2 * t) / 2)) t := by
      rw [zigNormal_eq]
      exact h1.congr_of_eventuallyEq (Filter.Eventually.of_forall zigNormal_eq)
    have := (h3.neg).div_const x
    refine this.congr_deriv ?_
    ring
  have hlim : Filter.Tendsto (fun t => -zigNormal t / x) Filter.atTop (nhds 0) := by
    have h1 : Filter.Tendsto (fun t : ℝ => -t ^ 2 / 2) Filter.atTop Filter.atBot := by
      have h2 : Filter.Tendsto (fun t : ℝ => t ^ 2 / 2) Filter.atTop Filter.atTop :=
        (Filter.tendsto_pow_atTop (by norm_num)).atTop_div_const (by norm_num)
      refine (Filter.tendsto_neg_atTop_atBot.comp h2).congr fun t => ?_
      simp only [Function.comp_apply]
      ring
    have h3 : Filter.Tendsto zigNormal Filter.atTop (nhds 0) :=
      (Real.tendsto_exp_atBot.comp h1).congr fun t => (zigNormal_eq t).symm
    have := (h3.neg).div_const x
    simpa using this
  have hpos : ∀ t ∈ Set.Ioi x, 0 ≤ t / x * zigNormal t := by
    intro t ht
    have : 0 < t := lt_trans hx ht
    have := zigNormal_pos t
    positivity
  have hint := integrableOn_Ioi_deriv_of_nonneg' hd hpos hlim
  have hval := integral_Ioi_of_hasDerivAt_of_nonneg' hd hpos hlim
  calc ∫ t in Set.Ioi x, zigNormal t ≤ ∫ t in Set.Ioi x, t / x * zigNormal t := by
        apply setIntegral_mono_on zigNormal_integrable.integrableOn hint measurableSet_Ioi
        intro t ht
        have h1 : 1 ≤ t / x := (one_le_div hx).2 (le_of_lt ht)
        nlinarith [zigNormal_pos t]
    _ = _ := by rw [hval]; ring

/-! ## Bounds on exponentials by repeated squaring -/

/-- `n` times: square and divide by `10^18`. -/
def lowSq : ℕ → ℕ → ℕ
  | s, 0 => s
  | s, n + 1 => lowSq (s * s / 1000000000000000000) n

theorem lowSq_spec (n : ℕ) : ∀ (s : ℕ) (y : ℝ), (s : ℝ) / 1000000000000000000 ≤ exp (-y) →
    (lowSq s n : ℝ) / 1000000000000000000 ≤ exp (-(y * 2 ^ n)) := by
  induction n with
  | zero => intro s y h; simpa [lowSq] using h
  | succ n ih =>
    intro s y h
    rw [lowSq, show y * 2 ^ (n + 1) = (2 * y) * 2 ^ n by ring]
    apply ih
    have h1 : ((s * s / 1000000000000000000 : ℕ) : ℝ) ≤ ((s * s : ℕ) : ℝ) / ((1000000000000000000 : ℕ) : ℝ) := Nat.cast_div_le
    rw [Nat.cast_mul, Nat.cast_ofNat] at h1
    have h2 : exp (-(2 * y)) = exp (-y) * exp (-y) := by rw [← exp_add]; congr 1; ring
    rw [h2]
    have h0 : 0 ≤ (s : ℝ) / 1000000000000000000 := by positivity
    calc ((s * s / 1000000000000000000 : ℕ) : ℝ) / 1000000000000000000 ≤ ((s : ℝ) * s / 1000000000000000000) / 1000000000000000000 := by gcongr
      _ = (s : ℝ) / 1000000000000000000 * ((s : ℝ) / 1000000000000000000) := by ring
      _ ≤ _ := by gcongr

/-- A lower bound of `10^18 * normal(a / 10^9)`. -/
def expLow (a : ℕ) : ℕ := lowSq (1000000000000000000 - (a * a / 2097152 + 1)) 20

theorem expLow_spec (a : ℕ) (h : a * a / 2097152 + 1 ≤ 1000000000000000000) : (expLow a : ℝ) / 1000000000000000000 ≤ zigNormal ((a : ℝ) / 1000000000) := by
  have hy : ((1000000000000000000 - (a * a / 2097152 + 1) : ℕ) : ℝ) / 1000000000000000000 ≤ exp (-(((a : ℝ) / 1000000000) ^ 2 / 2097152)) := by
    have h1 := Real.add_one_le_exp (-(((a : ℝ) / 1000000000) ^ 2 / 2097152))
    refine le_trans ?_ h1
    rw [Nat.cast_sub h]
    have h2 : (a * a : ℕ) < (a * a / 2097152 + 1) * 2097152 := by omega
    have h3 : ((a * a : ℕ) : ℝ) < (((a * a / 2097152 + 1) * 2097152 : ℕ) : ℝ) := Nat.cast_lt.2 h2
    rw [Nat.cast_mul, Nat.cast_mul, Nat.cast_add] at h3
    have h4 : (a : ℝ) * a / 2097152 < ((a * a / 2097152 : ℕ) : ℝ) + 1 := by
      rw [div_lt_iff₀ (by norm_num)]
      simpa using h3
    rw [Nat.cast_add, Nat.cast_one, Nat.cast_ofNat]
    rw [div_le_iff₀ (by norm_num)]
    calc (1000000000000000000 : ℝ) - (((a * a / 2097152 : ℕ) : ℝ) + 1) ≤ 1000000000000000000 - (a : ℝ) * a / 2097152 := by linarith
      _ = _ := by ring
  have := lowSq_spec 20 _ _ hy
  rw [zigNormal_eq]
  refine le_trans this (le_of_eq ?_)
  congr 1
  ring

/-- `n` times: square, divide by `10^18`, round up. -/
def upSq : ℕ → ℕ → ℕ
  | s, 0 => s
  | s, n + 1 => upSq (s * s / 1000000000000000000 + 1) n

theorem upSq_spec (n : ℕ) : ∀ (s : ℕ) (y : ℝ), exp (-y) ≤ (s : ℝ) / 1000000000000000000 →
    exp (-(y * 2 ^ n)) ≤ (upSq s n : ℝ) / 1000000000000000000 := by
  induction n with
  | zero => intro s y h; simpa [upSq] using h
  | succ n ih =>
    intro s y h
    rw [upSq, show y * 2 ^ (n + 1) = (2 * y) * 2 ^ n by ring]
    apply ih
    have h2 : exp (-(2 * y)) = exp (-y) * exp (-y) := by rw [← exp_add]; congr 1; ring
    rw [h2]
    have h3 : s * s < (s * s / 1000000000000000000 + 1) * 1000000000000000000 := by omega
    have h4 : ((s * s : ℕ) : ℝ) < (((s * s / 1000000000000000000 + 1) * 1000000000000000000 : ℕ) : ℝ) := Nat.cast_lt.2 h3
    have h5 : (s : ℝ) * s < ((s * s / 1000000000000000000 + 1 : ℕ) : ℝ) * 1000000000000000000 := by
      rw [Nat.cast_mul, Nat.cast_mul] at h4
      simpa using h4
    have hp := exp_pos (-y)
    calc exp (-y) * exp (-y) ≤ (s : ℝ) / 1000000000000000000 * ((s : ℝ) / 1000000000000000000) := by gcongr
      _ = (s : ℝ) * s / 1000000000000000000 / 1000000000000000000 := by ring
      _ ≤ _ := by
        gcongr
        rw [div_le_iff₀ (by norm_num)]
        exact h5.le

/-! ## The recursion for `xn` -/

/-- An upper bound of `10^9 * v`. -/
def zigVn : ℕ := 9966249

/-- Lower bounds of `10^9 * xn[127 - k]`, for `k = 0, ..., 125`. -/
def zigLow : List ℕ :=
  [3442605255, 3222203063, 3081977000, 2977221281, 2892713742, 2821372038, 2759314472, 2704171344, 2654386870,
   2608882755, 2566879776, 2527795827, 2491184149, 2456694077, 2424045119, 2393009228, 2363398390, 2335055662,
   2307848627, 2281664477, 2256406266, 2231990040, 2208342574, 2185399593, 2163104339, 2141406429, 2120260904,
   2099627472, 2079469853, 2059755251, 2040453916, 2021538750, 2002984999, 1984769973, 1966872811, 1949274277,
   1931956591, 1914903259, 1898098955, 1881529403, 1865181260, 1849042044, 1833100034, 1817344213, 1801764193,
   1786350163, 1771092840, 1755983413, 1741013506, 1726175148, 1711460721, 1696862944, 1682374835, 1667989686,
   1653701043, 1639502679, 1625388569, 1611352881, 1597389950, 1583494260, 1569660433, 1555883210, 1542157434,
   1528478046, 1514840054, 1501238537, 1487668624, 1474125479, 1460604294, 1447100275, 1433608626, 1420124540,
   1406643186, 1393159692, 1379669139, 1366166537, 1352646820, 1339104822, 1325535266, 1311932747, 1298291711,
   1284606435, 1270871007, 1257079299, 1243224949, 1229301325, 1215301497, 1201218205, 1187043820, 1172770301,
   1158389146, 1143891346, 1129267316, 1114506834, 1099598958, 1084531946, 1069293143, 1053868877, 1038244310,
   1022403287, 1006328147, 989999505, 973395988, 956493923, 939266962, 921685625, 903716736, 885322735,
   866460813, 847081818, 827128863, 806535518, 785223424, 763099118, 740049683, 715936681, 690587462,
   663782363, 635235100, 604561507, 571226921, 534451608, 493025266, 444897316, 386098700, 306938562]

/-- Checks the lower bounds and returns an upper bound of `10^9 * normal(xn[1])`. -/
def zigCheck : ℕ → List ℕ → Option ℕ
  | F, [] => some F
  | F, X :: l =>
    if 0 < X ∧ X * X / 2097152 + 1 ≤ 1000000000000000000 ∧ F * 1000000000 ≤ expLow X ∧ F + zigVn * 1000000000 / X + 1 < 1000000000 then
      zigCheck (F + zigVn * 1000000000 / X + 1) l
    else none

theorem zigCheck_run : zigCheck 2669700 zigLow = some 986456373 := by
  decide +kernel

theorem zigR_normal : zigNormal zigR ≤ 2669700 / 1000000000 := by
  rw [zigNormal_eq]
  have hy : exp (-(zigR ^ 2 / 2 / 2 ^ 20)) ≤ ((1000000000000000000 * 1000000000000000000 /
      (1000000000000000000 + 5651298271288) + 1 : ℕ) : ℝ) / 1000000000000000000 := by
    have h1 := Real.add_one_le_exp (zigR ^ 2 / 2 / 2 ^ 20)
    rw [exp_neg]
    have h2 : (1 : ℝ) + 5651298271288 / 1000000000000000000 ≤ zigR ^ 2 / 2 / 2 ^ 20 + 1 := by
      unfold zigR
      norm_num
    calc (exp (zigR ^ 2 / 2 / 2 ^ 20))⁻¹ ≤ (1 + 5651298271288 / 1000000000000000000 : ℝ)⁻¹ := by
          apply inv_anti₀ (by norm_num)
          linarith
      _ ≤ _ := by norm_num
  have := upSq_spec 20 _ _ hy
  have e : upSq (1000000000000000000 * 1000000000000000000 / (1000000000000000000 + 5651298271288) + 1) 20 =
      2669673785098181 := by decide +kernel
  rw [e] at this
  rw [show -zigR ^ 2 / 2 = -(zigR ^ 2 / 2 / 2 ^ 20 * 2 ^ 20) by ring]
  refine le_trans this ?_
  norm_num

theorem zigR_pos : 0 < zigR := by unfold zigR; norm_num

theorem zigV_pos : 0 < zigV := by
  unfold zigV
  have := zigNormalIntegral_nonneg zigR
  have := zigNormal_pos zigR
  have := zigR_pos
  positivity

theorem zigV_le : zigV ≤ zigVn / 1000000000 := by
  unfold zigV
  have h1 := zigNormalIntegral_le zigR_pos
  have h2 := zigR_normal
  have h3 : zigR * zigNormal zigR + zigNormalIntegral zigR ≤ zigNormal zigR * (zigR + 1 / zigR) := by
    rw [mul_add, mul_one_div]
    linarith
  have h4 : zigR + 1 / zigR ≤ 3.7330965 := by unfold zigR; norm_num
  have := zigNormal_pos zigR
  calc zigR * zigNormal zigR + zigNormalIntegral zigR ≤ zigNormal zigR * (zigR + 1 / zigR) := h3
    _ ≤ 2669700 / 1000000000 * 3.7330965 := by
        have := zigR_pos
        gcongr
    _ ≤ _ := by unfold zigVn; norm_num

theorem zigCheck_spec (l : List ℕ) : ∀ (F F' k : ℕ), zigCheck F l = some F' → F < 1000000000 → 0 < zigTop k →
    zigNormal (zigTop k) ≤ F / 1000000000 →
    (∀ j ≤ l.length, 0 < zigTop (k + j)) ∧
    (∀ j < l.length, zigNormal (zigTop (k + j + 1)) = zigV / zigTop (k + j) + zigNormal (zigTop (k + j))) ∧
    zigNormal (zigTop (k + l.length)) ≤ F' / 1000000000 := by
  induction l with
  | nil =>
    intro F F' k h _ h0 h1
    cases h
    refine ⟨fun j hj => ?_, fun j hj => ?_, h1⟩
    · simp only [List.length_nil, Nat.le_zero] at hj; rw [hj]; exact h0
    · simp at hj
  | cons X l ih =>
    intro F F' k h hF h0 h1
    rw [zigCheck] at h
    split at h
    · rename_i hc
      obtain ⟨hX, hX2, hFX, hF2⟩ := hc
      have hXr : (0 : ℝ) < X := by exact_mod_cast hX
      -- the lower bound of `xn`
      have hlow : (X : ℝ) / 1000000000 ≤ zigTop k := by
        apply le_of_zigNormal h0.le
        refine h1.trans (le_trans ?_ (expLow_spec X hX2))
        have : ((F * 1000000000 : ℕ) : ℝ) ≤ expLow X := Nat.cast_le.2 hFX
        rw [Nat.cast_mul, Nat.cast_ofNat] at this
        rw [div_le_div_iff₀ (by norm_num) (by norm_num)]
        linarith
      have hv : zigV / zigTop k ≤ zigVn / X := by
        calc zigV / zigTop k ≤ (zigVn / 1000000000) / (X / 1000000000) := by
              have := zigV_le
              have := zigV_pos
              gcongr
          _ = _ := by field_simp
      have hdiv : (zigVn : ℝ) * 1000000000 / X ≤ ((zigVn * 1000000000 / X + 1 : ℕ) : ℝ) := by
        rw [div_le_iff₀ hXr]
        have : zigVn * 1000000000 < (zigVn * 1000000000 / X + 1) * X := Nat.lt_div_mul_add hX |>.trans_eq (by ring)
        have : ((zigVn * 1000000000 : ℕ) : ℝ) < (((zigVn * 1000000000 / X + 1) * X : ℕ) : ℝ) := Nat.cast_lt.2 this
        rw [Nat.cast_mul, Nat.cast_mul, Nat.cast_ofNat] at this
        exact this.le
      have harg : zigV / zigTop k + zigNormal (zigTop k) ≤ ((F + zigVn * 1000000000 / X + 1 : ℕ) : ℝ) / 1000000000 := by
        rw [show F + zigVn * 1000000000 / X + 1 = F + (zigVn * 1000000000 / X + 1) by ring, Nat.cast_add, add_div]
        have : (zigVn : ℝ) / X ≤ ((zigVn * 1000000000 / X + 1 : ℕ) : ℝ) / 1000000000 := by
          rw [le_div_iff₀ (by norm_num)]
          refine le_trans (le_of_eq ?_) hdiv
          ring
        linarith
      have hlt : ((F + zigVn * 1000000000 / X + 1 : ℕ) : ℝ) < 1000000000 := by exact_mod_cast hF2
      have harg1 : zigV / zigTop k + zigNormal (zigTop k) < 1 := by
        refine lt_of_le_of_lt harg ?_
        rw [div_lt_one (by norm_num)]
        exact hlt
      have harg0 : 0 < zigV / zigTop k + zigNormal (zigTop k) := by
        have := zigV_pos
        have := zigNormal_pos (zigTop k)
        positivity
      have hnext : zigNormal (zigTop (k + 1)) = zigV / zigTop k + zigNormal (zigTop k) := by
        rw [zigTop]; exact zigNormal_inv harg0 harg1.le
      have hpos : 0 < zigTop (k + 1) := by rw [zigTop]; exact zigNormalInv_pos harg0 harg1
      obtain ⟨r1, r2, r3⟩ := ih _ F' (k + 1) h hF2 hpos (by rw [hnext]; exact harg)
      refine ⟨fun j hj => ?_, fun j hj => ?_, ?_⟩
      · rcases j with _ | j
        · exact h0
        · have := r1 j (by simpa using hj)
          rwa [show k + (j + 1) = k + 1 + j by ring]
      · rcases j with _ | j
        · exact hnext
        · have := r2 j (by simpa using hj)
          rwa [show k + (j + 1) = k + 1 + j by ring]
      · rw [List.length_cons, show k + (l.length + 1) = k + 1 + l.length by ring]
        exact r3
    · cases h

theorem zigLow_length : zigLow.length = 126 := by decide +kernel

theorem zigTop_pos {k : ℕ} (h : k ≤ 126) : 0 < zigTop k := by
  have := (zigCheck_spec zigLow _ _ 0 zigCheck_run (by norm_num) zigR_pos (by exact_mod_cast zigR_normal)).1 k
    (by rw [zigLow_length]; exact h)
  rwa [zero_add] at this

theorem zigTop_succ {k : ℕ} (h : k < 126) :
    zigNormal (zigTop (k + 1)) = zigV / zigTop k + zigNormal (zigTop k) := by
  have := (zigCheck_spec zigLow _ _ 0 zigCheck_run (by norm_num) zigR_pos (by exact_mod_cast zigR_normal)).2.1 k
    (by rw [zigLow_length]; exact h)
  rwa [zero_add] at this

/-- The innermost layer is at least `0.16` wide. -/
theorem zigX_one : 0.16 < zigX 1 := by
  have h1 := (zigCheck_spec zigLow _ _ 0 zigCheck_run (by norm_num) zigR_pos (by exact_mod_cast zigR_normal)).2.2
  rw [zigLow_length, zero_add] at h1
  have h2 : zigX 1 = zigTop 126 := rfl
  rw [h2]
  have h3 := expLow_spec 161000000 (by norm_num)
  have h4 : expLow 161000000 = 987123125533863631 := by decide +kernel
  rw [h4] at h3
  have h5 : ((161000000 : ℕ) : ℝ) / 1000000000 ≤ zigTop 126 := by
    apply le_of_zigNormal (zigTop_pos le_rfl).le
    refine h1.trans (le_trans ?_ h3)
    norm_num
  refine lt_of_lt_of_le ?_ h5
  norm_num

/-! ## The layers -/

theorem zigX_pos {i : ℕ} (h1 : 1 ≤ i) : 0 < zigX i := by
  unfold zigX
  rw [if_neg (by omega)]
  exact zigTop_pos (by omega)

theorem zigX_last : zigX 127 = zigR := rfl

/-- Layers have the same area. -/
theorem zigX_area {i : ℕ} (h1 : 2 ≤ i) (h2 : i ≤ 127) :
    zigX i * (zigNormal (zigX (i - 1)) - zigNormal (zigX i)) = zigV := by
  have hp := zigX_pos (i := i) (by omega)
  have h := zigTop_succ (k := 127 - i) (by omega)
  have e1 : zigX i = zigTop (127 - i) := by unfold zigX; rw [if_neg (by omega)]
  have e2 : zigX (i - 1) = zigTop (127 - i + 1) := by
    unfold zigX; rw [if_neg (by omega)]; congr 1; omega
  rw [← e1, ← e2] at h
  rw [h]
  field_simp
  ring

theorem zigNormal_layer {i : ℕ} (h1 : 2 ≤ i) (h2 : i ≤ 127) : zigNormal (zigX i) < zigNormal (zigX (i - 1)) := by
  have hp := zigX_pos (i := i) (by omega)
  have hv := zigV_pos
  rw [← zigX_area h1 h2] at hv
  have := pos_of_mul_pos_right hv hp.le
  linarith

theorem zigX_lt {i : ℕ} (h1 : 2 ≤ i) (h2 : i ≤ 127) : zigX (i - 1) < zigX i := by
  by_contra hcon
  have := zigNormal_anti (zigX_pos (i := i) (by omega)).le (not_lt.1 hcon)
  linarith [zigNormal_layer h1 h2]

/-! ## An upper bound for the width of the innermost layer -/

theorem zigNormalIntegral_ge (x : ℝ) : x / (x ^ 2 + 1) * zigNormal x ≤ zigNormalIntegral x := by
  rw [zigNormalIntegral_eq]
  have hd : ∀ t ∈ Set.Ici x, HasDerivAt (fun t => -(t / (t ^ 2 + 1) * zigNormal t))
      ((1 - 2 / (t ^ 2 + 1) ^ 2) * zigNormal t) t := by
    intro t _
    have h1 : HasDerivAt (fun t : ℝ => exp (-t ^ 2 / 2)) (exp (-t ^ 2 / 2) * (-(2 * t) / 2)) t := by
      have h2 : HasDerivAt (fun t : ℝ => -t ^ 2 / 2) (-(2 * t) / 2) t := by
        have := ((hasDerivAt_pow 2 t).neg).div_const 2
        simpa using this
      exact h2.exp
    have h3 : HasDerivAt zigNormal (zigNormal t * (-(2 * t) / 2)) t := by
      rw [zigNormal_eq]
      exact h1.congr_of_eventuallyEq (Filter.Eventually.of_forall zigNormal_eq)
    have h4 : HasDerivAt (fun t : ℝ => t ^ 2 + 1) (2 * t) t := by
      have := (hasDerivAt_pow 2 t).add_const 1
      simpa using this
    have h5 := ((hasDerivAt_id t).div h4 (by positivity)).mul h3
    refine h5.neg.congr_deriv ?_
    simp only [id, Pi.div_apply]
    field_simp
    ring
  have hlim : Filter.Tendsto (fun t => -(t / (t ^ 2 + 1) * zigNormal t)) Filter.atTop (nhds 0) := by
    have h1 : Filter.Tendsto (fun t : ℝ => -t ^ 2 / 2) Filter.atTop Filter.atBot := by
      have h2 : Filter.Tendsto (fun t : ℝ => t ^ 2 / 2) Filter.atTop Filter.atTop :=
        (Filter.tendsto_pow_atTop (by norm_num)).atTop_div_const (by norm_num)
      refine (Filter.tendsto_neg_atTop_atBot.comp h2).congr fun t => ?_
      simp only [Function.comp_apply]
      ring
    have h3 : Filter.Tendsto zigNormal Filter.atTop (nhds 0) :=
      (Real.tendsto_exp_atBot.comp h1).congr fun t => (zigNormal_eq t).symm
    have h4 : Filter.Tendsto (fun t : ℝ => t / (t ^ 2 + 1) * zigNormal t) Filter.atTop (nhds 0) := by
      refine squeeze_zero' ?_ ?_ h3
      · filter_upwards [Filter.eventually_ge_atTop 0] with t ht
        have := zigNormal_pos t
        positivity
      · filter_upwards [Filter.eventually_ge_atTop 0] with t ht
        have := zigNormal_pos t
        have : t / (t ^ 2 + 1) ≤ 1 := by
          rw [div_le_one (by positivity)]
          nlinarith [sq_nonneg (t - 1)]
        nlinarith
    simpa using h4.neg
  -- the derivative is at most the density
  have hle : ∀ T, x ≤ T → x / (x ^ 2 + 1) * zigNormal x - T / (T ^ 2 + 1) * zigNormal T ≤ ∫ t in Set.Ioi x, zigNormal t := by
    intro T hT
    have hcont : ContinuousOn (fun t : ℝ => (1 - 2 / (t ^ 2 + 1) ^ 2) * zigNormal t) (Set.uIcc x T) := by
      apply Continuous.continuousOn
      have : Continuous zigNormal := by unfold zigNormal; fun_prop
      refine Continuous.mul (continuous_const.sub (continuous_const.div (by fun_prop) fun t => ?_)) this
      positivity
    have hval := intervalIntegral.integral_eq_sub_of_hasDerivAt (a := x) (b := T)
      (f := fun t => -(t / (t ^ 2 + 1) * zigNormal t)) (fun t ht => hd t (by
        rw [Set.uIcc_of_le hT] at ht; exact ht.1)) hcont.intervalIntegrable
    have h1 : x / (x ^ 2 + 1) * zigNormal x - T / (T ^ 2 + 1) * zigNormal T =
        ∫ t in x..T, (1 - 2 / (t ^ 2 + 1) ^ 2) * zigNormal t := by
      rw [hval]; ring
    rw [h1]
    calc ∫ t in x..T, (1 - 2 / (t ^ 2 + 1) ^ 2) * zigNormal t ≤ ∫ t in x..T, zigNormal t := by
          apply intervalIntegral.integral_mono_on hT hcont.intervalIntegrable zigNormal_integrable.intervalIntegrable
          intro t _
          have := zigNormal_pos t
          have : 0 ≤ 2 / (t ^ 2 + 1) ^ 2 := by positivity
          nlinarith
      _ ≤ _ := by
          rw [intervalIntegral.integral_of_le hT]
          apply setIntegral_mono_set zigNormal_integrable.integrableOn
          · exact Filter.Eventually.of_forall fun t => (zigNormal_pos t).le
          · exact (Set.Ioc_subset_Ioi_self).eventuallyLE
  have htend := (hlim.const_add (x / (x ^ 2 + 1) * zigNormal x))
  rw [add_zero] at htend
  refine le_of_tendsto htend ?_
  filter_upwards [Filter.eventually_ge_atTop x] with T hT
  have := hle T hT
  linarith

/-- An upper bound of `10^18 * normal(a / 10^9)`. -/
def expUp (a : ℕ) : ℕ :=
  upSq (1000000000000000000000000000000000000 / (1000000000000000000 + a * a / 2097152) + 1) 20

theorem expUp_spec (a : ℕ) : zigNormal ((a : ℝ) / 1000000000) ≤ (expUp a : ℝ) / 1000000000000000000 := by
  have hy : exp (-(((a : ℝ) / 1000000000) ^ 2 / 2097152)) ≤
      ((1000000000000000000000000000000000000 / (1000000000000000000 + a * a / 2097152) + 1 : ℕ) : ℝ) / 1000000000000000000 := by
    have h1 := Real.add_one_le_exp (((a : ℝ) / 1000000000) ^ 2 / 2097152)
    set q := a * a / 2097152 with hq
    have h2 : (q : ℝ) ≤ (a : ℝ) * a / 2097152 := by
      rw [le_div_iff₀ (by norm_num)]
      have : q * 2097152 ≤ a * a := Nat.div_mul_le_self _ _
      exact_mod_cast this
    have h3 : (1000000000000000000 + q : ℝ) / 1000000000000000000 ≤ ((a : ℝ) / 1000000000) ^ 2 / 2097152 + 1 := by
      rw [div_le_iff₀ (by norm_num)]
      calc (1000000000000000000 + q : ℝ) ≤ 1000000000000000000 + (a : ℝ) * a / 2097152 := by linarith
        _ = _ := by ring
    have hpos : (0 : ℝ) < 1000000000000000000 + q := by positivity
    rw [exp_neg]
    calc (exp (((a : ℝ) / 1000000000) ^ 2 / 2097152))⁻¹ ≤ ((1000000000000000000 + q : ℝ) / 1000000000000000000)⁻¹ := by
          apply inv_anti₀ (by positivity)
          linarith
      _ = 1000000000000000000 / (1000000000000000000 + q) := by rw [inv_div]
      _ ≤ _ := by
        rw [div_le_div_iff₀ hpos (by norm_num)]
        have h4 : 1000000000000000000000000000000000000 <
            (1000000000000000000000000000000000000 / (1000000000000000000 + q) + 1) * (1000000000000000000 + q) := by
          have := Nat.lt_div_mul_add (a := 1000000000000000000000000000000000000) (b := 1000000000000000000 + q) (by omega)
          exact this.trans_eq (by ring)
        have h5 : ((1000000000000000000000000000000000000 : ℕ) : ℝ) <
            (((1000000000000000000000000000000000000 / (1000000000000000000 + q) + 1) * (1000000000000000000 + q) : ℕ) : ℝ) :=
          Nat.cast_lt.2 h4
        rw [Nat.cast_mul, Nat.cast_ofNat, Nat.cast_add 1000000000000000000 q, Nat.cast_ofNat] at h5
        refine le_trans (le_of_eq ?_) h5.le
        norm_num
  have := upSq_spec 20 _ _ hy
  rw [zigNormal_eq]
  refine le_trans (le_of_eq ?_) this
  congr 1
  ring

/-- A lower bound of `10^9 * v`. -/
def zigVl : ℕ := 9905475

theorem zigR_normal_ge : (2669584 : ℝ) / 1000000000 ≤ zigNormal zigR := by
  have h1 : zigNormal (((3442619856 : ℕ) : ℝ) / 1000000000) ≤ zigNormal zigR :=
    zigNormal_anti zigR_pos.le (by unfold zigR; norm_num)
  refine le_trans ?_ ((expLow_spec 3442619856 (by norm_num)).trans h1)
  have : expLow 3442619856 = 2669584382149669 := by decide +kernel
  rw [this]
  norm_num

theorem zigV_ge : (zigVl : ℝ) / 1000000000 ≤ zigV := by
  unfold zigV
  have h1 := zigNormalIntegral_ge zigR
  have h2 := zigR_normal_ge
  have h3 : (3.710494 : ℝ) ≤ zigR + zigR / (zigR ^ 2 + 1) := by unfold zigR; norm_num
  have h4 : zigNormal zigR * (zigR + zigR / (zigR ^ 2 + 1)) ≤ zigR * zigNormal zigR + zigNormalIntegral zigR := by
    rw [mul_add]
    linarith
  refine le_trans ?_ h4
  calc (zigVl : ℝ) / 1000000000 ≤ 2669584 / 1000000000 * 3.710494 := by unfold zigVl; norm_num
    _ ≤ _ := by gcongr

/-- Upper bounds of `10^9 * xn[127 - k]`, for `k = 0, ..., 125`. -/
def zigHigh : List ℕ :=
  [3442629763, 3223207163, 3083399472, 2978896148, 2894563700, 2823361211, 2761418594, 2706374299, 2656677330,
   2611252390, 2569322265, 2530305228, 2493757528, 2459328266, 2426737520, 2395757686, 2366201106, 2337911129,
   2310755574, 2284621829, 2259413118, 2235045623, 2211446248, 2188550819, 2166302681, 2144651528, 2123552477,
   2102965303, 2082853788, 2063185195, 2043929821, 2025059622, 2006551881, 1988382958, 1970532034, 1952979911,
   1935708844, 1918702380, 1901945228, 1885423144, 1869122822, 1853031810, 1837138424, 1821431680, 1805901223,
   1790537276, 1775330589, 1760272385, 1745354329, 1730568478, 1715907255, 1701363415, 1686930015, 1672600388,
   1658368119, 1644227023, 1630171122, 1616194628, 1602291924, 1588457544, 1574686163, 1560972575, 1547311680,
   1533698477, 1520128042, 1506595519, 1493096105, 1479625038, 1466177591, 1452749050, 1439334707, 1425929851,
   1412529749, 1399129636, 1385724703, 1372310082, 1358880837, 1345431938, 1331958260, 1318454557, 1304915445,
   1291335385, 1277708667, 1264029382, 1250291402, 1236488348, 1222613572, 1208660118, 1194620688, 1180487605,
   1166252772, 1151907615, 1137443042, 1122849370, 1108116261, 1093232639, 1078186605, 1062965326, 1047554915,
   1031940294, 1016105026, 1000031122, 983698814, 967086283, 950169334, 932921000, 915311068, 897305489,
   878865655, 859947485, 840500274, 820465218, 799773490, 778343706, 756078511, 732859900, 708542654, 682944876,
   655833914, 626904650, 595744444, 561773329, 524134517, 481474402, 431439534, 369279584]

/-- Checks the upper bounds and returns a lower bound of `10^9 * normal(xn[1])`. -/
def zigCheckUp : ℕ → List ℕ → Option ℕ
  | F, [] => some F
  | F, Y :: l => if 0 < Y ∧ expUp Y ≤ F * 1000000000 then zigCheckUp (F + zigVl * 1000000000 / Y) l else none

theorem zigCheckUp_run : zigCheckUp 2669584 zigHigh = some 960912987 := by
  decide +kernel

theorem zigCheckUp_spec (l : List ℕ) : ∀ (F F' k : ℕ), zigCheckUp F l = some F' → k + l.length ≤ 126 →
    (F : ℝ) / 1000000000 ≤ zigNormal (zigTop k) →
    (F' : ℝ) / 1000000000 ≤ zigNormal (zigTop (k + l.length)) := by
  induction l with
  | nil =>
    intro F F' k h _ h1
    cases h
    exact h1
  | cons Y l ih =>
    intro F F' k h hk h1
    rw [zigCheckUp] at h
    rw [List.length_cons] at hk ⊢
    split at h
    · rename_i hc
      obtain ⟨hY, hF⟩ := hc
      have hYr : (0 : ℝ) < Y := by exact_mod_cast hY
      have h0 := zigTop_pos (k := k) (by omega)
      have hup : zigTop k ≤ (Y : ℝ) / 1000000000 := by
        apply le_of_zigNormal (by positivity)
        refine ((expUp_spec Y).trans ?_).trans h1
        have : ((expUp Y : ℕ) : ℝ) ≤ ((F * 1000000000 : ℕ) : ℝ) := Nat.cast_le.2 hF
        rw [Nat.cast_mul, Nat.cast_ofNat] at this
        rw [div_le_div_iff₀ (by norm_num) (by norm_num)]
        linarith
      have hv : (zigVl : ℝ) / Y ≤ zigV / zigTop k := by
        calc (zigVl : ℝ) / Y = (zigVl / 1000000000) / (Y / 1000000000) := by field_simp
          _ ≤ _ := by
            have := zigV_ge
            have := zigV_pos
            gcongr
      have hdiv : ((zigVl * 1000000000 / Y : ℕ) : ℝ) / 1000000000 ≤ (zigVl : ℝ) / Y := by
        have : zigVl * 1000000000 / Y * Y ≤ zigVl * 1000000000 := Nat.div_mul_le_self _ _
        have : ((zigVl * 1000000000 / Y * Y : ℕ) : ℝ) ≤ ((zigVl * 1000000000 : ℕ) : ℝ) := Nat.cast_le.2 this
        rw [Nat.cast_mul, Nat.cast_mul, Nat.cast_ofNat] at this
        rw [div_le_div_iff₀ (by norm_num) hYr]
        exact this
      have := ih _ F' (k + 1) h (by omega) (by
        rw [zigTop_succ (by omega), Nat.cast_add, add_div]
        linarith)
      rwa [show k + 1 + l.length = k + (l.length + 1) by ring] at this
    · cases h

/-- The innermost layer is less than `0.29` wide. -/
theorem zigX_one_lt : zigX 1 < 0.29 := by
  have hlen : zigHigh.length = 126 := by decide +kernel
  have h1 := zigCheckUp_spec zigHigh _ _ 0 zigCheckUp_run (by rw [hlen]) (by exact_mod_cast zigR_normal_ge)
  rw [hlen, zero_add] at h1
  have h2 : zigX 1 = zigTop 126 := rfl
  rw [h2]
  have h4 : expUp 289000000 = 959099458187083411 := by decide +kernel
  have h3 := expUp_spec 289000000
  rw [h4] at h3
  have h5 : zigTop 126 ≤ ((289000000 : ℕ) : ℝ) / 1000000000 := by
    apply le_of_zigNormal (by positivity)
    refine le_trans h3 (le_trans ?_ h1)
    norm_num
  refine lt_of_le_of_lt h5 ?_
  norm_num

end Ringo
