import Verif.Proof.JBound
import Verif.Proof.JVerify
import Verif.Props.JProto
import Mathlib.Data.Fintype.BigOperators

/-!
# C114: the values a proof decodes to hide the committed polynomials

`jPart` and `jResp` are what the partial evaluations and the responses of a proof decode to
(`C114_view`): combinations of the entries of the committed matrices and of the masks.  With the
last row of the matrix and the masks drawn uniformly, the distribution of all these values together
depends on the polynomials only through their lengths and their values at the point (`C114_hiding`);
the challenges may depend on the partial evaluations in any way.
-/

namespace Ringo

open Finset

section
variable {F : Type} [CommRing F]

/-- Weight of row `i` for the point `x`. -/
def jLeft (M : MatParams) (x : F) (i : Nat) : F :=
  if i = M.rows - 1 then x else x ^ (M.cols * M.slots * i)

/-- Slot `s` of the partial evaluation of column `j` (`cols`: of the masks) for a batch of vectors
`v`, with blinding rows `row` and masks `mask`: the rows are combined by the weights of `x`, the
batch by `bet`. -/
def jPart (M : MatParams) {b : Nat} (x : F) (bet : Fin b → F) (row : Fin b → Nat → F)
    (mask : Fin b → Nat → Nat → F) (v : Fin b → List F) (j s : Nat) : F :=
  ∑ i ∈ range M.rows, jLeft M x i * ∑ t, bet t * JEnv.colEntry M (row t) (mask t) (v t) j i s

/-- Slot `s` of row `i` of the response: the mask plus the columns combined by `gam`. -/
def jResp (M : MatParams) {b : Nat} (bet : Fin b → F) (gam : Nat → F) (row : Fin b → Nat → F)
    (mask : Fin b → Nat → Nat → F) (v : Fin b → List F) (i s : Nat) : F :=
  ∑ t, bet t * (JEnv.colEntry M (row t) (mask t) (v t) M.cols i s +
    ∑ j ∈ range M.cols, gam j * JEnv.colEntry M (row t) (mask t) (v t) j i s)

/-- The field elements drawn for one commitment: the last row without its last entry, which is zero,
and the masks. -/
abbrev JCoins (F : Type) (M : MatParams) : Type :=
  (Fin (M.cols * M.slots - 1) → F) × (Fin M.rows → Fin M.slots → F)

def JCoins.row {M : MatParams} (c : JCoins F M) (k : Nat) : F :=
  if h : k < M.cols * M.slots - 1 then c.1 ⟨k, h⟩ else 0

def JCoins.mask {M : MatParams} (c : JCoins F M) (i s : Nat) : F :=
  if h : i < M.rows ∧ s < M.slots then c.2 ⟨i, h.1⟩ ⟨s, h.2⟩ else 0

/-- The decoded values of a proof: partial evaluations, that of the masks, and the responses. -/
abbrev JSeen (F : Type) (M : MatParams) : Type :=
  (Fin M.cols → Fin M.slots → F) × (Fin M.slots → F) × (Fin M.rows → Fin M.slots → F)

/-- The decoded values of a proof with these coins; the challenges of the columns may be any
function of the partial evaluations. -/
def jSeen (M : MatParams) {b : Nat} (x : F) (bet : Fin b → F)
    (gam : (Fin M.cols → Fin M.slots → F) → (Fin M.slots → F) → Nat → F)
    (v : Fin b → List F) (c : Fin b → JCoins F M) : JSeen F M :=
  let parts := fun (j : Fin M.cols) (s : Fin M.slots) =>
    jPart M x bet (fun t => (c t).row) (fun t => (c t).mask) v j s
  let pmask := fun s : Fin M.slots =>
    jPart M x bet (fun t => (c t).row) (fun t => (c t).mask) v M.cols s
  (parts, pmask, fun i s =>
    jResp M bet (gam parts pmask) (fun t => (c t).row) (fun t => (c t).mask) v i s)

/-! ## Shifting the coins -/

theorem hide_quot (n : Nat) (x : F) (d : Nat → F) (h : ∑ k ∈ range n, d k * x ^ k = 0) :
    ∃ D : Nat → F, (∀ k, n ≤ k + 1 → D k = 0) ∧
      ∀ k < n, x * D k - (if k = 0 then 0 else D (k - 1)) = d k := by
  refine ⟨fun k => -∑ i ∈ range (n - (k + 1)), d (k + 1 + i) * x ^ i, ?_, ?_⟩
  · intro k hk
    dsimp only
    rw [Nat.sub_eq_zero_of_le hk]
    simp
  · intro k hk
    have hs : ∀ k < n, ∑ i ∈ range (n - k), d (k + i) * x ^ i =
        d k + x * ∑ i ∈ range (n - (k + 1)), d (k + 1 + i) * x ^ i := by
      intro k hk
      rw [show n - k = (n - (k + 1)) + 1 by omega, sum_range_succ', mul_sum, add_comm]
      congr 1
      · simp
      · apply sum_congr rfl
        intro i _
        rw [show k + (i + 1) = k + 1 + i by omega, pow_succ]
        ring
    by_cases h0 : k = 0
    · subst h0
      rw [if_pos rfl]
      have := hs 0 hk
      simp only [Nat.sub_zero, Nat.zero_add] at this
      rw [h] at this
      simp only [Nat.zero_add]
      linear_combination this
    · rw [if_neg h0]
      have h2 := hs k hk
      dsimp only
      rw [show k - 1 + 1 = k by omega, h2]
      ring

theorem matEntry_sub (M : MatParams) (row D : Nat → F) (v v' : List F) (i k : Nat) :
    matEntry M row v i k - matEntry M (fun k => row k + D k) v' i k =
      matEntry M (fun _ => 0) v i k - matEntry M D v' i k := by
  unfold matEntry lastAt
  split
  · split
    · ring
    · split <;> ring
  · split
    · split <;> ring
    · ring

/-- Two vectors of equal value at `x`: shifting the blinding row makes up for the difference. -/
theorem hide_shift {M : MatParams} (h : M.Good) (x : F) (v v' : List F) (hr : v.length ≤ M.rank)
    (hr' : v'.length ≤ M.rank) (he : evalAt v.length v x = evalAt v'.length v' x) :
    ∃ D : Nat → F, (∀ k, M.cols * M.slots ≤ k + 1 → D k = 0) ∧
      ∀ k < M.cols * M.slots, ∑ i ∈ range M.rows, jLeft M x i *
        (matEntry M (fun _ => 0) v i k - matEntry M D v' i k) = 0 := by
  have e1 := matEntry_eval h (fun _ => 0) v hr x
  have e2 := matEntry_eval h (fun _ => 0) v' hr' x
  obtain ⟨D, h1, h2⟩ := hide_quot (M.cols * M.slots) x
    (fun k => ∑ i ∈ range M.rows, jLeft M x i *
      (matEntry M (fun _ => 0) v i k - matEntry M (fun _ => 0) v' i k)) (by
      rw [← e1, ← e2] at he
      rw [← sub_eq_zero, ← sum_sub_distrib] at he
      refine Eq.trans ?_ he
      simp only [sum_mul, mul_sum]
      rw [sum_comm]
      apply sum_congr rfl
      intro i _
      rw [← sum_sub_distrib]
      apply sum_congr rfl
      intro k _
      unfold jLeft
      split_ifs <;> ring)
  refine ⟨D, h1, ?_⟩
  intro k hk
  have h3 := h2 k hk
  obtain ⟨m, hm⟩ : ∃ m, M.rows = m + 2 := ⟨M.rows - 2, by have := h.rows; omega⟩
  have hn := h.pos
  have hD : ∀ k, lastAt (M.cols * M.slots) D k = D k := by
    intro k
    unfold lastAt
    split
    · rfl
    · exact (h1 k (by omega)).symm
  have key : ∀ i < M.rows, matEntry M D v' i k = matEntry M (fun _ => 0) v' i k +
      ((if i = 0 then -(if k = 0 then 0 else D (k - 1)) else 0) +
        if i = M.rows - 1 then D k else 0) := by
    intro i hi
    unfold matEntry
    by_cases hi0 : i = 0
    · rw [if_pos hi0, if_pos hi0, if_pos hi0, if_neg (show i ≠ M.rows - 1 by omega), hD]
      by_cases hk0 : k = 0
      · simp [hk0]
      · simp [hk0, lastAt, sub_eq_add_neg]
    · rw [if_neg hi0, if_neg hi0, if_neg hi0]
      by_cases hi1 : i = M.rows - 1
      · rw [if_pos hi1, if_pos hi1, if_pos hi1, hD]; simp [lastAt]
      · rw [if_neg hi1, if_neg hi1, if_neg hi1]; simp
  have h4 : ∑ i ∈ range M.rows, jLeft M x i *
        (matEntry M (fun _ => 0) v i k - matEntry M D v' i k) =
      ∑ i ∈ range M.rows, (jLeft M x i *
        (matEntry M (fun _ => 0) v i k - matEntry M (fun _ => 0) v' i k) -
        ((if i = 0 then jLeft M x i * -(if k = 0 then 0 else D (k - 1)) else 0) +
          if i = M.rows - 1 then jLeft M x i * D k else 0)) := by
    apply sum_congr rfl
    intro i hi
    rw [key i (mem_range.mp hi)]
    split_ifs <;> ring
  rw [h4, sum_sub_distrib, ← h3, sum_add_distrib, sum_ite_eq' (range M.rows) 0,
    sum_ite_eq' (range M.rows) (M.rows - 1), if_pos (mem_range.mpr (by omega)),
    if_pos (mem_range.mpr (by omega))]
  have l0 : jLeft M x 0 = 1 := by
    unfold jLeft
    rw [if_neg (by omega), Nat.mul_zero, pow_zero]
  have l1 : jLeft M x (M.rows - 1) = x := by
    unfold jLeft
    rw [if_pos rfl]
  rw [l0, l1]
  ring

theorem JCoins.row_add {M : MatParams} (c a : JCoins F M) (k : Nat) :
    (c + a).row k = c.row k + a.row k := by
  unfold JCoins.row
  split
  · rfl
  · simp

theorem JCoins.mask_add {M : MatParams} (c a : JCoins F M) (i s : Nat) :
    (c + a).mask i s = c.mask i s + a.mask i s := by
  unfold JCoins.mask
  split
  · rfl
  · simp

/-- What the shift `a` of the coins does to column `j`, for vectors `v` and `v'`. -/
def jDelta (M : MatParams) (D : Nat → F) (v v' : List F) (j i s : Nat) : F :=
  matEntry M (fun _ => 0) v i (j * M.slots + s) - matEntry M D v' i (j * M.slots + s)

/-- Rows that start after the end of the vectors do not change. -/
theorem jDelta_skip {M : MatParams} (D : Nat → F) (v v' : List F) (hl : v.length = v'.length)
    (j i s : Nat) (hi : i ≠ 0 ∧ i ≠ M.rows - 1 ∧ v.length < i * M.cols * M.slots) :
    jDelta M D v v' j i s = 0 := by
  unfold jDelta matEntry
  rw [if_neg hi.1, if_neg hi.2.1, if_neg hi.1, if_neg hi.2.1,
    List.getD_eq_default v _ (by rw [← Nat.mul_assoc]; omega),
    List.getD_eq_default v' _ (by rw [← Nat.mul_assoc]; omega), sub_zero]

/-- The coins to add: the shift of the row, and the masks that make up for the columns. -/
def jShift (M : MatParams) (D : Nat → F) (v v' : List F) (g : Nat → F) : JCoins F M :=
  (fun k => D k, fun i s => ∑ j ∈ range M.cols, g j * jDelta M D v v' j i s)

theorem jShift_row {M : MatParams} {D : Nat → F} (hD : ∀ k, M.cols * M.slots ≤ k + 1 → D k = 0)
    (v v' : List F) (g : Nat → F) (k : Nat) : (jShift M D v v' g).row k = D k := by
  unfold JCoins.row jShift
  split
  · rfl
  · exact (hD k (by omega)).symm

theorem colEntry_cell {M : MatParams} (D : Nat → F)
    (hD : ∀ k, M.cols * M.slots ≤ k + 1 → D k = 0)
    (v v' : List F) (g : Nat → F) (c : JCoins F M) (j i s : Nat) (hj : j < M.cols) :
    JEnv.colEntry M (c + jShift M D v v' g).row (c + jShift M D v v' g).mask v' j i s =
      JEnv.colEntry M c.row c.mask v j i s - jDelta M D v v' j i s := by
  have h1 : (c + jShift M D v v' g).row = fun k => c.row k + D k := by
    funext k
    rw [JCoins.row_add, jShift_row hD]
  unfold JEnv.colEntry
  rw [if_neg (by omega), if_neg (by omega), h1]
  unfold jDelta
  rw [← matEntry_sub M c.row D v v' i]
  ring

theorem colEntry_mask {M : MatParams} (D : Nat → F) (v v' : List F) (hl : v.length = v'.length)
    (g : Nat → F) (c : JCoins F M) (i s : Nat) (hi : i < M.rows) (hs : s < M.slots) :
    JEnv.colEntry M (c + jShift M D v v' g).row (c + jShift M D v v' g).mask v' M.cols i s =
      JEnv.colEntry M c.row c.mask v M.cols i s +
        ∑ j ∈ range M.cols, g j * jDelta M D v v' j i s := by
  unfold JEnv.colEntry
  rw [if_pos rfl, if_pos rfl, ← hl]
  by_cases h : i ≠ 0 ∧ i ≠ M.rows - 1 ∧ v.length < i * M.cols * M.slots
  · rw [if_pos h, if_pos h, sum_eq_zero (fun j _ => by rw [jDelta_skip D v v' hl j i s h, mul_zero]),
      add_zero]
  · rw [if_neg h, if_neg h, JCoins.mask_add]
    congr 1
    unfold JCoins.mask jShift
    rw [dif_pos ⟨hi, hs⟩]

/-- The decoded values do not change. -/
theorem jSeen_shift {M : MatParams} {b : Nat} (x : F) (bet : Fin b → F)
    (gam : (Fin M.cols → Fin M.slots → F) → (Fin M.slots → F) → Nat → F) (v v' : Fin b → List F)
    (hl : ∀ t, (v t).length = (v' t).length) (D : Fin b → Nat → F)
    (hD : ∀ t k, M.cols * M.slots ≤ k + 1 → D t k = 0)
    (hz : ∀ t, ∀ k < M.cols * M.slots, ∑ i ∈ range M.rows, jLeft M x i *
        (matEntry M (fun _ => 0) (v t) i k - matEntry M (D t) (v' t) i k) = 0)
    (c : Fin b → JCoins F M) (w : JSeen F M) (hw : jSeen M x bet gam v c = w) :
    jSeen M x bet gam v' (fun t => c t + jShift M (D t) (v t) (v' t) (gam w.1 w.2.1)) = w := by
  have hcol : ∀ t, ∀ j < M.cols, ∀ s < M.slots,
      ∑ i ∈ range M.rows, jLeft M x i * jDelta M (D t) (v t) (v' t) j i s = 0 := by
    intro t j hj s hs
    apply hz t
    have := Nat.mul_le_mul_right M.slots hj
    rw [Nat.succ_mul] at this
    omega
  generalize hg : gam w.1 w.2.1 = g
  -- partial evaluations of the columns
  have hp : ∀ j < M.cols, ∀ s < M.slots,
      jPart M x bet (fun t => (c t + jShift M (D t) (v t) (v' t) g).row)
        (fun t => (c t + jShift M (D t) (v t) (v' t) g).mask) v' j s =
      jPart M x bet (fun t => (c t).row) (fun t => (c t).mask) v j s := by
    intro j hj s hs
    unfold jPart
    simp only [colEntry_cell _ (hD _) _ _ _ _ _ _ _ hj, mul_sub, sum_sub_distrib]
    rw [sub_eq_self]
    simp only [mul_sum]
    rw [sum_comm]
    apply sum_eq_zero
    intro t _
    have := congrArg (bet t * ·) (hcol t j hj s hs)
    rw [mul_zero, mul_sum] at this
    rw [← this]
    apply sum_congr rfl
    intro i _
    ring
  -- partial evaluation of the masks
  have hm : ∀ s < M.slots,
      jPart M x bet (fun t => (c t + jShift M (D t) (v t) (v' t) g).row)
        (fun t => (c t + jShift M (D t) (v t) (v' t) g).mask) v' M.cols s =
      jPart M x bet (fun t => (c t).row) (fun t => (c t).mask) v M.cols s := by
    intro s hs
    unfold jPart
    have h1 : ∀ i ∈ range M.rows, jLeft M x i * ∑ t, bet t * JEnv.colEntry M
        (c t + jShift M (D t) (v t) (v' t) g).row (c t + jShift M (D t) (v t) (v' t) g).mask (v' t)
          M.cols i s =
        jLeft M x i * ∑ t, bet t * JEnv.colEntry M (c t).row (c t).mask (v t) M.cols i s +
        ∑ t, ∑ j ∈ range M.cols, bet t * g j *
          (jLeft M x i * jDelta M (D t) (v t) (v' t) j i s) := by
      intro i hi
      rw [mul_sum, mul_sum, ← sum_add_distrib]
      apply sum_congr rfl
      intro t _
      rw [colEntry_mask _ _ _ (hl t) _ _ _ _ (mem_range.mp hi) hs, mul_add, mul_add, mul_sum, mul_sum]
      congr 1
      apply sum_congr rfl
      intro j _
      ring
    rw [sum_congr rfl h1, sum_add_distrib, add_eq_left, sum_comm]
    apply sum_eq_zero
    intro t _
    rw [sum_comm]
    apply sum_eq_zero
    intro j hj
    rw [← mul_sum, hcol t j (mem_range.mp hj) s hs, mul_zero]
  -- responses
  have hr : ∀ i < M.rows, ∀ s < M.slots,
      jResp M bet g (fun t => (c t + jShift M (D t) (v t) (v' t) g).row)
        (fun t => (c t + jShift M (D t) (v t) (v' t) g).mask) v' i s =
      jResp M bet g (fun t => (c t).row) (fun t => (c t).mask) v i s := by
    intro i hi s hs
    unfold jResp
    apply sum_congr rfl
    intro t _
    congr 1
    rw [colEntry_mask _ _ _ (hl t) _ _ _ _ hi hs, add_assoc]
    congr 1
    rw [← sum_add_distrib]
    apply sum_congr rfl
    intro j hj
    rw [colEntry_cell _ (hD t) _ _ _ _ _ _ _ (mem_range.mp hj)]
    ring
  subst hw
  unfold jSeen at hg ⊢
  dsimp only at hg ⊢
  have e1 : (fun (j : Fin M.cols) (s : Fin M.slots) =>
      jPart M x bet (fun t => (c t + jShift M (D t) (v t) (v' t) g).row)
        (fun t => (c t + jShift M (D t) (v t) (v' t) g).mask) v' j s) =
      fun (j : Fin M.cols) (s : Fin M.slots) =>
        jPart M x bet (fun t => (c t).row) (fun t => (c t).mask) v j s := by
    funext j s
    exact hp j j.2 s s.2
  have e2 : (fun (s : Fin M.slots) =>
      jPart M x bet (fun t => (c t + jShift M (D t) (v t) (v' t) g).row)
        (fun t => (c t + jShift M (D t) (v t) (v' t) g).mask) v' M.cols s) =
      fun (s : Fin M.slots) =>
        jPart M x bet (fun t => (c t).row) (fun t => (c t).mask) v M.cols s := by
    funext s
    exact hm s s.2
  rw [e1, e2, hg]
  congr 2
  funext i s
  exact hr i i.2 s s.2

theorem hide_le [Fintype F] [DecidableEq F] {M : MatParams} (h : M.Good) {b : Nat} (x : F)
    (bet : Fin b → F)
    (gam : (Fin M.cols → Fin M.slots → F) → (Fin M.slots → F) → Nat → F) (v v' : Fin b → List F)
    (hl : ∀ t, (v t).length = (v' t).length) (hr : ∀ t, (v t).length ≤ M.rank)
    (he : ∀ t, evalAt (v t).length (v t) x = evalAt (v' t).length (v' t) x) (w : JSeen F M) :
    Fintype.card {c : Fin b → JCoins F M // jSeen M x bet gam v c = w} ≤
      Fintype.card {c : Fin b → JCoins F M // jSeen M x bet gam v' c = w} := by
  have hs := fun t => hide_shift h x (v t) (v' t) (hr t) (hl t ▸ hr t) (he t)
  choose D hD hz using hs
  refine Fintype.card_le_of_injective
    (fun c => ⟨fun t => c.1 t + jShift M (D t) (v t) (v' t) (gam w.1 w.2.1),
      jSeen_shift x bet gam v v' hl D hD hz c.1 w c.2⟩) ?_
  intro c c' hcc
  apply Subtype.ext
  funext t
  have := congrFun (congrArg Subtype.val hcc) t
  exact add_right_cancel this

/-- **C114, hiding.**  Two batches of polynomials of the same lengths and with the same values at
`x`: for all batching challenges, however the challenges of the columns are computed from the
partial evaluations, and for all values a proof may decode to, the number of choices of the last rows
and masks that give these values is the same. -/
theorem C114_hiding [Fintype F] [DecidableEq F] {M : MatParams} (h : M.Good) {b : Nat} (x : F)
    (bet : Fin b → F)
    (gam : (Fin M.cols → Fin M.slots → F) → (Fin M.slots → F) → Nat → F) (v v' : Fin b → List F)
    (hl : ∀ t, (v t).length = (v' t).length) (hr : ∀ t, (v t).length ≤ M.rank)
    (he : ∀ t, ∑ i ∈ range (v t).length, (v t).getD i 0 * x ^ i =
      ∑ i ∈ range (v' t).length, (v' t).getD i 0 * x ^ i) (w : JSeen F M) :
    Fintype.card {c : Fin b → JCoins F M // jSeen M x bet gam v c = w} =
      Fintype.card {c : Fin b → JCoins F M // jSeen M x bet gam v' c = w} :=
  le_antisymm (hide_le h x bet gam v v' hl hr he w)
    (hide_le h x bet gam v' v (fun t => (hl t).symm) (fun t => hl t ▸ hr t) (fun t => (he t).symm) w)

/-! ## Opening twice -/

theorem jResp_one (M : MatParams) (hc : M.cols = 1) (g : Nat → F) (row : Nat → F)
    (mask : Nat → Nat → F) (v : List F) (i s : Nat) :
    jResp M (fun _ : Fin 1 => 1) g (fun _ => row) (fun _ => mask) (fun _ => v) i s =
      JEnv.colEntry M row mask v M.cols i s + g 0 * matEntry M row v i s := by
  unfold jResp
  rw [Fin.sum_univ_one, one_mul, hc, sum_range_one]
  congr 2
  unfold JEnv.colEntry
  rw [if_neg (by omega), Nat.zero_mul, Nat.zero_add]

/-- **C114, openings are for one use.**  With one column and one polynomial: the responses of two
proofs from the same opening, with different challenges, determine the polynomial. -/
theorem C114_reuse {K : Type} [Field K] {M : MatParams} (h : M.Good) (hc : M.cols = 1)
    (g g' : Nat → K) (hg : g 0 ≠ g' 0) (row row' : Nat → K) (mask mask' : Nat → Nat → K)
    (v v' : List K) (hl : v.length = v'.length) (hr : v.length ≤ M.rank)
    (h1 : ∀ i < M.rows, ∀ s < M.slots,
      jResp M (fun _ : Fin 1 => 1) g (fun _ => row) (fun _ => mask) (fun _ => v) i s =
      jResp M (fun _ : Fin 1 => 1) g (fun _ => row') (fun _ => mask') (fun _ => v') i s)
    (h2 : ∀ i < M.rows, ∀ s < M.slots,
      jResp M (fun _ : Fin 1 => 1) g' (fun _ => row) (fun _ => mask) (fun _ => v) i s =
      jResp M (fun _ : Fin 1 => 1) g' (fun _ => row') (fun _ => mask') (fun _ => v') i s) :
    v = v' := by
  have hrows := h.rows
  have hn : M.cols * M.slots = M.slots := by rw [hc, Nat.one_mul]
  have hent : ∀ i < M.rows, ∀ s < M.slots, matEntry M row v i s = matEntry M row' v' i s := by
    intro i hi s hs
    have e1 := h1 i hi s hs
    have e2 := h2 i hi s hs
    rw [jResp_one M hc, jResp_one M hc] at e1 e2
    have e3 : (g 0 - g' 0) * (matEntry M row v i s - matEntry M row' v' i s) = 0 := by
      linear_combination e1 - e2
    rcases mul_eq_zero.mp e3 with e4 | e4
    · exact absurd (sub_eq_zero.mp e4) hg
    · exact sub_eq_zero.mp e4
  have hlast : ∀ k < M.slots, lastAt M.slots row k = lastAt M.slots row' k := by
    intro k hk
    have := hent (M.rows - 1) (by omega) k hk
    unfold matEntry at this
    rw [if_neg (by omega), if_pos rfl, if_neg (by omega), if_pos rfl, hn] at this
    exact this
  have hget : ∀ t < M.rank, v.getD t 0 = v'.getD t 0 := by
    intro t ht
    rw [h.rank, hc, Nat.one_mul] at ht
    have hs := h.slots
    have hi : t / M.slots < M.rows - 1 := Nat.div_lt_of_lt_mul (by rwa [Nat.mul_comm])
    have hm : t % M.slots < M.slots := Nat.mod_lt _ (by omega)
    have ht2 := Nat.div_add_mod t M.slots
    have e := hent (t / M.slots) (by omega) (t % M.slots) hm
    unfold matEntry at e
    rw [hn] at e
    by_cases h0 : t / M.slots = 0
    · rw [if_pos h0, if_pos h0] at e
      rw [h0, Nat.mul_zero, Nat.zero_add] at ht2
      rw [ht2] at e hm
      by_cases hk : t = 0
      · rw [if_pos hk, if_pos hk, sub_zero, sub_zero] at e
        exact e
      · rw [if_neg hk, if_neg hk, hlast (t - 1) (by omega)] at e
        exact sub_left_injective e
    · rw [if_neg h0, if_neg (by omega), if_neg h0, if_neg (by omega), Nat.mul_comm, ht2] at e
      exact e
  apply List.ext_getElem hl
  intro t ht ht'
  have := hget t (by omega)
  rwa [List.getD_eq_getElem _ _ ht, List.getD_eq_getElem _ _ ht'] at this

end

/-! ## What a proof decodes to -/

section
variable {p : Nat} {T T' : Type} [AddCommGroup T] [AddCommGroup T']

/-- A polynomial that stands for small integers is decoded to what these decode to. -/
theorem decodePoly_bnd {E : JEnv p T T'} (h : E.Good) (A : E.ringQ.Lawful) {t : T}
    {r : RZ E.par.enc.N} {B : Nat} (hb : Bnd E.par.enc.N r B)
    (ht : ∀ z : List Int, toZ E.par.enc.N z = r → A.val t = toR E.ringQ.qs E.ringQ.N z)
    (hB : 2 * B + 1 < E.ringQ.qs.prod) :
    ∃ z : List Int, z.length = E.par.enc.N ∧ toZ E.par.enc.N z = r ∧
      E.decodePoly (E.ringQ.unload t) = .ok (decoded p E.par.enc z) := by
  obtain ⟨z, h1, h2, h3⟩ := hb
  refine ⟨z, h1, h2, JEnv.decodePoly_of h ?_ (by rw [h1, h.deg])⟩
  refine A.reconstruct_rep (by rw [h1, h.deg]) (ht z h2) ?_
  intro c hc
  have := h3 c hc
  exact .of_lt (by omega) (by omega)

/-- **C114, the values.**  `Commit` to every vector of a batch, then `Evaluate` at `x`: if the
samples are at most `S` in absolute value and `Q` leaves room for the largest combinations of them,
the encoder decodes the partial evaluations, the partial evaluation of the masks and the responses
of the proof to `jPart` and `jResp` for the field elements drawn by `Commit`; `bet` and `gam` are the
challenges. -/
theorem C114_view (E : JEnv p T T') (h : E.Good) (A : E.ringQ.Lawful)
    (A' : E.ringQ'.Lawful) (x : ZMod p) (vs : List (List (ZMod p))) (hl : vs.length = E.par.batch)
    (hv : ∀ v ∈ vs, v ≠ [] ∧ v.length ≤ E.par.mat.rank) (rs : Nat → ComRand p) (S : Nat)
    (hS : ∀ i j k t, (((rs i).col j).cell k t).natAbs ≤ S)
    (b3 : 2 * (E.par.mat.rows * (E.par.enc.N * (E.par.enc.ecd.base *
      JEnv.batchGrow E (JEnv.encSize E S)))) + 1 < E.ringQ.qs.prod)
    (b4 : 2 * JEnv.combGrow E (JEnv.encSize E S) + 1 < E.ringQ.qs.prod) :
    ∃ coms : List (List T'), ∃ opens : List (JOpen T T'), ∃ pf : JProof T T',
      (∀ i < E.par.batch, E.commit (vs.getD i []) (rs i) =
          .ok (coms.getD i [], opens.getD i ⟨[], [], []⟩)) ∧
      coms.length = E.par.batch ∧ opens.length = E.par.batch ∧
      E.evaluate x vs coms opens =
        .ok (vs.map fun v => ∑ i ∈ range v.length, v.getD i 0 * x ^ i, pf) ∧
      ∃ (bet : Fin E.par.batch → ZMod p) (gam : Nat → ZMod p),
        (∀ t : Fin E.par.batch, bet t = (decoded p E.par.enc (E.betInt x coms t)).getD 0 0) ∧
        (∀ j, gam j = (decoded p E.par.enc (E.gamInt x coms pf.parts pf.partMask j)).getD 0 0) ∧
        (∀ j < E.par.mat.cols, ∃ l, E.decodePoly (E.ringQ.unload (pf.parts.getD j 0)) = .ok l ∧
          ∀ s < E.par.mat.slots, l.getD s 0 = jPart E.par.mat x bet (fun t => (rs t).row)
            (fun t => ((rs t).col E.par.mat.cols).mask) (fun t => vs.getD t []) j s) ∧
        (∃ l, E.decodePoly (E.ringQ.unload pf.partMask) = .ok l ∧
          ∀ s < E.par.mat.slots, l.getD s 0 = jPart E.par.mat x bet (fun t => (rs t).row)
            (fun t => ((rs t).col E.par.mat.cols).mask) (fun t => vs.getD t []) E.par.mat.cols s) ∧
        ∀ i < E.par.mat.rows, ∃ l, E.decodePoly (E.ringQ.unload (pf.encode.getD i 0)) = .ok l ∧
          ∀ s < E.par.mat.slots, l.getD s 0 = jResp E.par.mat bet gam (fun t => (rs t).row)
            (fun t => ((rs t).col E.par.mat.cols).mask) (fun t => vs.getD t []) i s := by
  have hone : ∀ i, ∃ com o, ∃ I : JInts, i < vs.length → (E.commit (vs.getD i []) (rs i) =
        .ok (com, o) ∧ E.Opens A A' (vs.getD i []) com o I ∧
        (∀ j ≤ E.par.mat.cols, ∀ k < E.par.mat.rows, JEnv.CellIs E ((rs i).col j) k (I.e j k)) ∧
        ∀ j ≤ E.par.mat.cols, ∀ k < E.par.mat.rows, ∀ s < E.par.mat.slots,
          (decoded p E.par.enc (I.e j k)).getD s 0 =
            JEnv.colEntry E.par.mat (rs i).row ((rs i).col j).mask (vs.getD i []) j k s) := by
    intro i
    by_cases hi : i < vs.length
    · have hm : vs.getD i [] ∈ vs := by
        rw [List.getD_eq_getElem _ _ hi]; exact List.getElem_mem hi
      obtain ⟨com, o, h1, I, h2, h3, -, h5⟩ :=
        JEnv.commit_spec h A A' _ (hv _ hm).1 (hv _ hm).2 (rs i)
      exact ⟨com, o, I, fun _ => ⟨h1, h2, h3, h5⟩⟩
    · exact ⟨[], ⟨[], [], []⟩, ⟨fun _ _ => [], fun _ _ => [], fun _ _ => [], fun _ _ => [], fun _ => []⟩,
        fun h => absurd h hi⟩
  choose com o I hI using hone
  rw [hl] at hI
  set coms := (List.range E.par.batch).map com with hcoms
  set opens := (List.range E.par.batch).map o with hopens
  have hcg : ∀ i < E.par.batch, coms.getD i [] = com i := fun i hi => getD_map_range _ _ _ _ hi
  have hog : ∀ i < E.par.batch, opens.getD i ⟨[], [], []⟩ = o i := fun i hi => getD_map_range _ _ _ _ hi
  have ho : ∀ i < E.par.batch, E.Opens A A' (vs.getD i []) (coms.getD i [])
      (opens.getD i ⟨[], [], []⟩) (I i) := by
    intro i hi
    rw [hcg i hi, hog i hi]
    exact (hI i hi).2.1
  obtain ⟨pf, h1, h2, h3, h4, h5, h6, h7, h8, h9, -⟩ := JEnv.evaluate_spec h A A' x vs coms opens hl
    (by simp [hcoms]) (by simp [hopens]) (fun v hm => (hv v hm).2) _ _ _ (fun i hi => (ho i hi).openIs)
  have hN : E.par.enc.N = E.ringQ.N := h.deg.symm
  have hbnd : ∀ i < E.par.batch, ∀ j ≤ E.par.mat.cols, ∀ k < E.par.mat.rows,
      Bnd E.par.enc.N (toZ E.par.enc.N ((I i).e j k)) (JEnv.encSize E S) := fun i hi j hj k hk =>
    ((hI i hi).2.2.1 j hj k hk).bnd h (fun t => hS i j k t)
  have hval : ∀ i < E.par.batch, ∀ j ≤ E.par.mat.cols, ∀ k < E.par.mat.rows, ∀ s < E.par.mat.slots,
      (decoded p E.par.enc ((I i).e j k)).getD s 0 = JEnv.colEntry E.par.mat (rs i).row
        ((rs i).col E.par.mat.cols).mask (vs.getD i []) j k s := by
    intro i hi j hj k hk s hs
    rw [(hI i hi).2.2.2 j hj k hk s hs]
    unfold JEnv.colEntry
    split
    · next hjc => rw [hjc]
    · rfl
  set bet : Nat → ZMod p := fun t => (decoded p E.par.enc (E.betInt x coms t)).getD 0 0 with hbet
  set gam : Nat → ZMod p := fun j =>
    (decoded p E.par.enc (E.gamInt x coms pf.parts pf.partMask j)).getD 0 0 with hgam
  -- partial evaluations, of the columns and of the masks
  have hpart : ∀ (t : T) (j : Nat), j ≤ E.par.mat.cols →
      A.val t = ∑ k ∈ range E.par.mat.rows, toR E.ringQ.qs E.ringQ.N (E.leftInt x k) *
        ∑ i ∈ range E.par.batch, toR E.ringQ.qs E.ringQ.N (E.betInt x coms i) *
          toR E.ringQ.qs E.ringQ.N ((I i).e j k) →
      ∃ l, E.decodePoly (E.ringQ.unload t) = .ok l ∧
        ∀ s < E.par.mat.slots, l.getD s 0 = jPart E.par.mat x (fun t : Fin E.par.batch => bet t)
          (fun t => (rs t).row) (fun t => ((rs t).col E.par.mat.cols).mask)
          (fun t => vs.getD t []) j s := by
    intro t j hj ht
    obtain ⟨z, z1, z2, z3⟩ := decodePoly_bnd h A (t := t)
      (Bnd.sum E.par.mat.rows (fun k => toZ E.par.enc.N (E.leftInt x k) *
        ∑ i ∈ range E.par.batch, toZ E.par.enc.N (E.betInt x coms i) *
          toZ E.par.enc.N ((I i).e j k)) _
        (fun k hk => (JEnv.leftInt_bnd h x k).mul
          (JEnv.batch_bnd h x coms _ _ (fun i hi => hbnd i hi j hj k hk))))
      (by
        intro z hz
        rw [hN] at hz
        rw [ht, toR_of_toZ hz, map_sum]
        simp only [map_mul, redR_toZ, map_sum]) b3
    refine ⟨_, z3, ?_⟩
    intro s hs
    simp only [mul_sum, ← mul_assoc] at z2
    rw [← sum_product' (f := fun k i => toZ E.par.enc.N (E.leftInt x k) *
      toZ E.par.enc.N (E.betInt x coms i) * toZ E.par.enc.N ((I i).e j k))] at z2
    rw [JEnv.decoded_comb h (range E.par.mat.rows ×ˢ range E.par.batch)
      (fun q => toZ E.par.enc.N (E.leftInt x q.1) * toZ E.par.enc.N (E.betInt x coms q.2))
      (fun q => E.leftAt x q.1 * bet q.2)
      (by
        intro q _
        rw [map_mul, JEnv.decZ_left h, JEnv.decZ_bet h, map_mul])
      (fun q => (I q.2).e j q.1)
      (by
        intro q hq
        rw [mem_product, mem_range, mem_range] at hq
        exact ((ho q.2 hq.2).enc j hj q.1 hq.1).1) z z1 z2 s]
    rw [sum_product]
    unfold jPart
    apply sum_congr rfl
    intro k hk
    rw [mul_sum, ← Finset.sum_range (fun i => jLeft E.par.mat x k * (bet i *
      JEnv.colEntry E.par.mat (rs i).row ((rs i).col E.par.mat.cols).mask (vs.getD i []) j k s))]
    apply sum_congr rfl
    intro i hi
    rw [hval i (mem_range.mp hi) j hj k (mem_range.mp hk) s hs, mul_assoc]
    rfl
  refine ⟨coms, opens, pf, ?_, by simp [hcoms], by simp [hopens], h1, fun t => bet t, gam,
    fun _ => rfl, fun _ => rfl, fun j hj => hpart _ j hj.le (h7 j hj), hpart _ _ le_rfl h8, ?_⟩
  · intro i hi
    rw [hcg i hi, hog i hi]
    exact (hI i hi).1
  · intro k hk
    obtain ⟨z, z1, z2, z3⟩ := decodePoly_bnd h A (t := pf.encode.getD k 0)
      (JEnv.comb_bnd h x coms pf.parts pf.partMask (fun i j => toZ E.par.enc.N ((I i).e j k)) _
        (fun i hi j hj => hbnd i hi j hj k hk))
      (by
        intro z hz
        rw [hN] at hz
        rw [h9 k hk, toR_of_toZ hz, map_sum]
        simp only [map_mul, redR_toZ, map_sum, map_add]
        exact (JEnv.comb_split E.par.batch E.par.mat.cols
          (fun i => toR E.ringQ.qs E.ringQ.N (E.betInt x coms i))
          (fun j => toR E.ringQ.qs E.ringQ.N (E.gamInt x coms pf.parts pf.partMask j))
          (fun i j => toR E.ringQ.qs E.ringQ.N ((I i).e j k))).symm) b4
    refine ⟨_, z3, ?_⟩
    intro s hs
    have z4 : toZ E.par.enc.N z = ∑ q ∈ range E.par.batch ×ˢ range (E.par.mat.cols + 1),
        (toZ E.par.enc.N (E.betInt x coms q.1) * (if q.2 = E.par.mat.cols then 1 else
          toZ E.par.enc.N (E.gamInt x coms pf.parts pf.partMask q.2))) *
          toZ E.par.enc.N ((I q.1).e q.2 k) := by
      rw [z2, sum_product]
      apply sum_congr rfl
      intro i _
      rw [sum_range_succ, if_pos rfl, mul_one, mul_add, mul_sum, add_comm]
      congr 1
      apply sum_congr rfl
      intro j hj
      rw [if_neg (by have := mem_range.mp hj; omega), mul_assoc]
    rw [JEnv.decoded_comb h (range E.par.batch ×ˢ range (E.par.mat.cols + 1))
      (fun q => toZ E.par.enc.N (E.betInt x coms q.1) * (if q.2 = E.par.mat.cols then 1 else
          toZ E.par.enc.N (E.gamInt x coms pf.parts pf.partMask q.2)))
      (fun q => bet q.1 * (if q.2 = E.par.mat.cols then 1 else gam q.2))
      (by
        intro q _
        rw [map_mul, JEnv.decZ_bet h, map_mul]
        congr 1
        split
        · rw [map_one, map_one]
        · exact JEnv.decZ_chal h _)
      (fun q => (I q.1).e q.2 k)
      (by
        intro q hq
        rw [mem_product, mem_range, mem_range] at hq
        exact ((ho q.1 hq.1).enc q.2 (by omega) k hk).1) z z1 z4 s]
    rw [sum_product]
    unfold jResp
    rw [← Finset.sum_range (fun i => bet i * (JEnv.colEntry E.par.mat (rs i).row
      ((rs i).col E.par.mat.cols).mask (vs.getD i []) E.par.mat.cols k s +
      ∑ j ∈ range E.par.mat.cols, gam j * JEnv.colEntry E.par.mat (rs i).row
        ((rs i).col E.par.mat.cols).mask (vs.getD i []) j k s))]
    apply sum_congr rfl
    intro i hi
    have hi := mem_range.mp hi
    rw [sum_range_succ, if_pos rfl, mul_one, mul_add, mul_sum, add_comm,
      hval i hi _ le_rfl k hk s hs]
    congr 1
    apply sum_congr rfl
    intro j hj
    have hj := mem_range.mp hj
    rw [if_neg (by omega), hval i hi j hj.le k hk s hs, mul_assoc]

end

end Ringo
