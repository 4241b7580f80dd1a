import Verif.Proof.JEval
import Mathlib.Tactic.Positivity
import Mathlib.Tactic.GCongr

/-!
# Sizes of coefficients in `ℤ[X]/(X^N + 1)`
-/

namespace Ringo

open Finset Polynomial

/-- `r` has coefficients of absolute value at most `B`. -/
def Bnd (N : Nat) (r : RZ N) (B : Nat) : Prop :=
  ∃ z : List Int, z.length = N ∧ toZ N z = r ∧ ∀ c ∈ z, c.natAbs ≤ B

theorem toZ_range (N : Nat) (f : Nat → Int) (n : Nat) : toZ N ((List.range n).map f) =
    ∑ j ∈ range n, (f j : RZ N) * AdjoinRoot.root (cyclo ℤ N) ^ j := by
  unfold toZ
  rw [listPoly_range, map_sum]
  apply sum_congr rfl
  intro j _
  rw [map_mul, map_pow, AdjoinRoot.mk_X, AdjoinRoot.mk_C]
  simp

theorem list_eq_range (z : List Int) : z = (List.range z.length).map fun i => z.getD i 0 := by
  apply List.ext_getElem (by simp)
  intro i h1 h2
  rw [List.getElem_map, List.getElem_range, List.getD_eq_getElem _ _ h1]

theorem Bnd.fn {N : Nat} {r : RZ N} {B : Nat} (h : Bnd N r B) :
    ∃ f : Nat → Int, (∀ i, (f i).natAbs ≤ B) ∧
      r = ∑ j ∈ range N, (f j : RZ N) * AdjoinRoot.root (cyclo ℤ N) ^ j := by
  obtain ⟨z, h1, h2, h3⟩ := h
  refine ⟨fun i => z.getD i 0, ?_, ?_⟩
  · intro i
    by_cases hi : i < z.length
    · dsimp only
      rw [List.getD_eq_getElem _ _ hi]; exact h3 _ (List.getElem_mem hi)
    · dsimp only
      rw [List.getD_eq_default _ _ (by omega)]; simp
  · rw [← h2]
    conv_lhs => rw [list_eq_range z]
    rw [toZ_range, h1]

theorem Bnd.of_fn {N : Nat} {B : Nat} (f : Nat → Int) (h : ∀ i < N, (f i).natAbs ≤ B) :
    Bnd N (∑ j ∈ range N, (f j : RZ N) * AdjoinRoot.root (cyclo ℤ N) ^ j) B := by
  refine ⟨(List.range N).map f, by simp, toZ_range N f N, ?_⟩
  intro c hc
  obtain ⟨i, hi, rfl⟩ := List.mem_map.mp hc
  exact h i (List.mem_range.mp hi)

theorem Bnd.mono {N : Nat} {r : RZ N} {B C : Nat} (h : Bnd N r B) (hBC : B ≤ C) : Bnd N r C := by
  obtain ⟨z, h1, h2, h3⟩ := h
  exact ⟨z, h1, h2, fun c hc => (h3 c hc).trans hBC⟩

theorem Bnd.zero (N : Nat) : Bnd N 0 0 := by
  have := Bnd.of_fn (N := N) (B := 0) (fun _ => 0) (by simp)
  simpa using this

theorem Bnd.add {N : Nat} {r s : RZ N} {B C : Nat} (h : Bnd N r B) (h' : Bnd N s C) :
    Bnd N (r + s) (B + C) := by
  obtain ⟨f, h1, rfl⟩ := h.fn
  obtain ⟨g, h2, rfl⟩ := h'.fn
  rw [← sum_add_distrib]
  have := Bnd.of_fn (N := N) (B := B + C) (fun i => f i + g i) (fun i _ =>
    (Int.natAbs_add_le _ _).trans (Nat.add_le_add (h1 i) (h2 i)))
  convert this using 1
  apply sum_congr rfl
  intro j _
  push_cast
  ring

theorem Bnd.smul {N : Nat} {r : RZ N} {B : Nat} (c : Int) (h : Bnd N r B) :
    Bnd N ((c : RZ N) * r) (c.natAbs * B) := by
  obtain ⟨f, h1, rfl⟩ := h.fn
  have := Bnd.of_fn (N := N) (B := c.natAbs * B) (fun i => c * f i) (fun i _ => by
    rw [Int.natAbs_mul]; exact Nat.mul_le_mul_left _ (h1 i))
  convert this using 1
  rw [mul_sum]
  apply sum_congr rfl
  intro j _
  push_cast
  ring

theorem Bnd.neg {N : Nat} {r : RZ N} {B : Nat} (h : Bnd N r B) : Bnd N (-r) B := by
  have := h.smul (-1)
  simpa using this

theorem Bnd.sum {N : Nat} (n : Nat) (r : Nat → RZ N) (B : Nat) (h : ∀ i < n, Bnd N (r i) B) :
    Bnd N (∑ i ∈ range n, r i) (n * B) := by
  induction n with
  | zero => simpa using Bnd.zero N
  | succ n ih =>
    rw [sum_range_succ, Nat.succ_mul]
    exact (ih (fun i hi => h i (by omega))).add (h n (by omega))

theorem root_pow (N : Nat) : AdjoinRoot.root (cyclo ℤ N) ^ N = -1 := by
  have h := AdjoinRoot.eval₂_root (cyclo ℤ N)
  rw [eval₂_add, eval₂_pow, eval₂_X, eval₂_one] at h
  exact eq_neg_of_add_eq_zero_left h

theorem Bnd.shift {N : Nat} {r : RZ N} {B : Nat} (h : Bnd N r B) :
    Bnd N (AdjoinRoot.root (cyclo ℤ N) * r) B := by
  obtain ⟨f, h1, rfl⟩ := h.fn
  cases N with
  | zero => simpa using (Bnd.zero 0).mono (Nat.zero_le _)
  | succ n =>
    have := Bnd.of_fn (N := n + 1) (B := B) (fun i => if i = 0 then -f n else f (i - 1)) (by
      intro i _
      split
      · rw [Int.natAbs_neg]; exact h1 n
      · exact h1 _)
    convert this using 1
    rw [sum_range_succ, sum_range_succ' _ n, mul_add, mul_sum]
    congr 1
    · apply sum_congr rfl
      intro j _
      rw [if_neg (by omega), Nat.add_sub_cancel, pow_succ]
      ring
    · rw [if_pos rfl]
      have := root_pow (n + 1)
      push_cast
      rw [pow_succ] at this
      linear_combination (f n : RZ (n + 1)) * this

theorem Bnd.shifts {N : Nat} {r : RZ N} {B : Nat} (h : Bnd N r B) (i : Nat) :
    Bnd N (AdjoinRoot.root (cyclo ℤ N) ^ i * r) B := by
  induction i with
  | zero => simpa using h
  | succ i ih =>
    have := ih.shift
    rwa [← mul_assoc, ← pow_succ'] at this

/-- A product: every coefficient is a signed sum of `N` products. -/
theorem Bnd.mul {N : Nat} {r s : RZ N} {B C : Nat} (h : Bnd N r B) (h' : Bnd N s C) :
    Bnd N (r * s) (N * (B * C)) := by
  obtain ⟨f, h1, rfl⟩ := h.fn
  rw [sum_mul]
  apply Bnd.sum
  intro i _
  rw [mul_assoc]
  exact ((h'.shifts i).smul (f i)).mono (Nat.mul_le_mul_right _ (h1 i))

theorem Bnd.of_list {N : Nat} {z : List Int} {B : Nat} (hl : z.length = N)
    (h : ∀ c ∈ z, c.natAbs ≤ B) : Bnd N (toZ N z) B := ⟨z, hl, rfl, h⟩

theorem Bnd.one {N : Nat} (hN : 1 ≤ N) : Bnd N 1 1 := by
  refine ⟨(List.range N).map fun i => if i = 0 then 1 else 0, by simp, ?_, ?_⟩
  · rw [toZ_range]
    obtain ⟨m, rfl⟩ : ∃ m, N = m + 1 := ⟨N - 1, by omega⟩
    rw [sum_range_succ', sum_eq_zero]
    · simp
    · intro j _
      rw [if_neg (by omega)]; simp
  · intro c hc
    obtain ⟨i, -, rfl⟩ := List.mem_map.mp hc
    split <;> simp

/-- The norm of `n` polynomials with bounded coefficients. -/
theorem jSqSum_le {zs : List (List Int)} {N B : Nat} (hl : ∀ z ∈ zs, z.length = N)
    (h : ∀ z ∈ zs, ∀ c ∈ z, c.natAbs ≤ B) : jSqSum zs ≤ zs.length * (N * B ^ 2) := by
  unfold jSqSum
  have h1 : ∀ z ∈ zs, (z.map fun c => c.natAbs ^ 2).sum ≤ N * B ^ 2 := by
    intro z hz
    have := List.sum_le_card_nsmul (z.map fun c => c.natAbs ^ 2) (B ^ 2) (by
      intro x hx
      obtain ⟨c, hc, rfl⟩ := List.mem_map.mp hx
      exact Nat.pow_le_pow_left (h z hz c hc) 2)
    simpa [hl z hz] using this
  have := List.sum_le_card_nsmul (zs.map fun z => (z.map fun c => c.natAbs ^ 2).sum) (N * B ^ 2) (by
    intro x hx
    obtain ⟨z, hz, rfl⟩ := List.mem_map.mp hx
    exact h1 z hz)
  simpa using this

theorem jSqSum_append (a b : List (List Int)) : jSqSum (a ++ b) = jSqSum a + jSqSum b := by
  simp [jSqSum]

namespace JEnv

set_option linter.unusedSectionVars false

variable {p : Nat} {T T' : Type} [AddCommGroup T] [AddCommGroup T'] {E : JEnv p T T'}

/-- A multiple of an element by one of the challenges. -/
def chalGrow (E : JEnv p T T') (B : Nat) : Nat :=
  E.par.enc.N * (challengeBound E.par.enc.ecd * B)

/-- What `batch` openings combine to. -/
def batchGrow (E : JEnv p T T') (B : Nat) : Nat := E.par.batch * chalGrow E B

/-- What `batch` openings with `cols` columns and a mask combine to. -/
def combGrow (E : JEnv p T T') (B : Nat) : Nat :=
  batchGrow E (B + E.par.mat.cols * chalGrow E B)

/-- The coefficients of an encoding, for samples of absolute value at most `S`. -/
def encSize (E : JEnv p T T') (S : Nat) : Nat := E.par.enc.ecd.base + S + E.par.enc.ecd.base * S

/-- The coefficients of a truncated inner commitment. -/
def truncMax (E : JEnv p T T') : Nat := (E.ringQ.qs.prod + 1) / 2 ^ (E.par.inCut + 1) + 1

theorem chalInt_bnd (h : E.Good) (bytes : List (BitVec 8)) :
    Bnd E.par.enc.N (toZ E.par.enc.N (chalInt E.par.enc bytes)) (challengeBound E.par.enc.ecd) := by
  apply Bnd.of_list (chalInt_length _ _)
  intro c hc
  have := chalInt_range h bytes c hc
  rw [Int.abs_eq_natAbs] at this
  omega

theorem encN_pos (h : E.Good) : 1 ≤ E.par.enc.N := by
  rw [h.enc.deg]; exact Nat.mul_pos h.enc.slots_pos h.enc.exp_pos

theorem betInt_bnd (h : E.Good) (x : ZMod p) (com : List (List T')) (i : Nat) :
    Bnd E.par.enc.N (toZ E.par.enc.N (E.betInt x com i)) (challengeBound E.par.enc.ecd) := by
  unfold betInt
  split
  · exact chalInt_bnd h _
  · rw [toZ_one]; exact (Bnd.one (encN_pos h)).mono h.chal

theorem batch_bnd (h : E.Good) (x : ZMod p) (com : List (List T')) (r : Nat → RZ E.par.enc.N) (B : Nat)
    (hr : ∀ i < E.par.batch, Bnd E.par.enc.N (r i) B) :
    Bnd E.par.enc.N (∑ i ∈ range E.par.batch, toZ E.par.enc.N (E.betInt x com i) * r i)
      (batchGrow E B) :=
  Bnd.sum _ _ _ fun i hi => (betInt_bnd h x com i).mul (hr i hi)

theorem comb_bnd (h : E.Good) (x : ZMod p) (com : List (List T')) (parts : List T) (pm : T)
    (r : Nat → Nat → RZ E.par.enc.N) (B : Nat)
    (hr : ∀ i < E.par.batch, ∀ j ≤ E.par.mat.cols, Bnd E.par.enc.N (r i j) B) :
    Bnd E.par.enc.N (∑ i ∈ range E.par.batch, toZ E.par.enc.N (E.betInt x com i) *
      (r i E.par.mat.cols + ∑ j ∈ range E.par.mat.cols,
        toZ E.par.enc.N (E.gamInt x com parts pm j) * r i j)) (combGrow E B) := by
  apply batch_bnd h
  intro i hi
  apply (hr i hi _ le_rfl).add
  apply Bnd.sum
  intro j hj
  exact (chalInt_bnd h _).mul (hr i hi j hj.le)

theorem CellIs.bnd (h : E.Good) {r : ColRand p} {k S : Nat} {e : List Int} (hc : CellIs E r k e)
    (hS : ∀ i, (r.cell k i).natAbs ≤ S) : Bnd E.par.enc.N (toZ E.par.enc.N e) (encSize E S) := by
  rcases hc with rfl | ⟨u, hu, rfl⟩
  · apply Bnd.of_list (by simp)
    intro c hc
    rw [List.eq_of_mem_replicate hc]; simp
  · apply Bnd.of_list (cellInt_length _ _ _)
    intro c hc
    unfold cellInt at hc
    obtain ⟨t, -, rfl⟩ := List.mem_map.mp hc
    have hs : ∀ i, ((((List.range E.par.enc.N).map (r.cell k)).getD i 0) : Int).natAbs ≤ S := by
      intro i
      rw [List.getD_eq_getElem?_getD, List.getElem?_map]
      cases (List.range E.par.enc.N)[i]? with
      | none => simp
      | some a => simpa using hS a
    have hd : ∀ i, ((List.range E.par.enc.N).map fun t =>
        ecdDigit E.par.enc.ecd.base E.par.enc.ecd.exp (u.getD (t % E.par.enc.slots) 0).val
          (t / E.par.enc.slots)).getD i 0 ≤ E.par.enc.ecd.base := by
      intro i
      rw [List.getD_eq_getElem?_getD, List.getElem?_map]
      cases (List.range E.par.enc.N)[i]? with
      | none => simp
      | some a => exact ecdDigit_le h.enc _ _
    unfold randCoeff encSize
    refine (Int.natAbs_add_le _ _).trans ?_
    rw [Nat.add_assoc]
    refine Nat.add_le_add (by simpa using hd t) ?_
    refine (Int.natAbs_sub_le _ _).trans ?_
    refine Nat.add_le_add ?_ ?_
    · split
      · rw [Int.natAbs_neg]; exact hs _
      · exact hs _
    · rw [Int.natAbs_mul]
      exact Nat.mul_le_mul (by simp) (hs _)

theorem leftInt_bnd (h : E.Good) (x : ZMod p) (k : Nat) :
    Bnd E.par.enc.N (toZ E.par.enc.N (E.leftInt x k)) E.par.enc.ecd.base := by
  apply Bnd.of_list (encInt_length _ _)
  intro c hc
  unfold encInt at hc
  obtain ⟨t, -, rfl⟩ := List.mem_map.mp hc
  simpa using ecdDigit_le h.enc _ _

theorem Opens.truncBnd {A : E.ringQ.Lawful} {A' : E.ringQ'.Lawful} {v com o I}
    (h : E.Opens A A' v com o I) {j k : Nat} (hj : j ≤ E.par.mat.cols) (hk : k < E.par.inRank) :
    Bnd E.par.enc.N (toZ E.par.enc.N (I.t j k)) (truncMax E) := by
  apply Bnd.of_list (h.trunc j hj k hk).1
  intro c hc
  have h1 := h.truncSize j hj k hk c hc
  rw [Int.abs_eq_natAbs] at h1
  have h2 : 2 ^ (E.par.inCut + 1) * c.natAbs ≤ E.ringQ.qs.prod + 1 + 2 ^ (E.par.inCut + 1) := by
    exact_mod_cast h1
  have hp : 0 < 2 ^ (E.par.inCut + 1) := Nat.pow_pos (by omega)
  unfold JEnv.truncMax
  rw [← Nat.add_div_right _ hp, Nat.le_div_iff_mul_le hp, Nat.mul_comm]
  exact h2

/-- Honest integers exist, and their sizes follow from those of the samples. -/
theorem honest_sizes (h : E.Good) (A : E.ringQ.Lawful) (A' : E.ringQ'.Lawful) (x : ZMod p)
    (vs : List (List (ZMod p))) (com : List (List T')) (opens : List (JOpen T T')) (pf : JProof T T')
    (I : Nat → JInts)
    (ho : ∀ i < E.par.batch, E.Opens A A' (vs.getD i []) (com.getD i [])
      (opens.getD i ⟨[], [], []⟩) (I i)) (rs : Nat → ComRand p)
    (hc : ∀ i < E.par.batch, ∀ j ≤ E.par.mat.cols, ∀ k < E.par.mat.rows,
      CellIs E ((rs i).col j) k ((I i).e j k))
    (hm : ∀ i < E.par.batch, ∀ j ≤ E.par.mat.cols, ∀ k < E.par.mlweRank + E.par.inRank,
      (I i).m j k = (List.range E.par.enc.N).map (((rs i).col j).mlwe k)) (S : Nat)
    (hS : ∀ i < E.par.batch, ∀ j ≤ E.par.mat.cols, ∀ k t,
      (((rs i).col j).cell k t).natAbs ≤ S ∧ (((rs i).col j).mlwe k t).natAbs ≤ S) :
    ∃ W : JWit, E.Honest x com pf I W ∧
      (∀ l < E.par.dcmpLen, (W.t l).length = E.par.enc.N ∧
        ∀ c ∈ W.t l, c.natAbs ≤ batchGrow E (truncMax E)) ∧
      (∀ k < E.par.outRank, ∀ c ∈ W.s k, c.natAbs ≤ batchGrow E (2 ^ E.par.outCut)) ∧
      (∀ k < E.par.mat.rows, ∀ c ∈ W.e k, c.natAbs ≤ combGrow E (encSize E S)) ∧
      (∀ k < E.par.mlweRank + E.par.inRank, ∀ c ∈ W.m k, c.natAbs ≤ combGrow E S) ∧
      (∀ k < E.par.inRank, ∀ c ∈ W.u k, c.natAbs ≤ combGrow E (2 ^ E.par.inCut)) ∧
      ∀ j < E.par.mat.cols, ∀ c ∈ W.f j, c.natAbs ≤
        E.par.mat.rows * (E.par.enc.N * (E.par.enc.ecd.base * batchGrow E (encSize E S))) := by
  have he : ∀ i < E.par.batch, ∀ j ≤ E.par.mat.cols, ∀ k < E.par.mat.rows,
      Bnd E.par.enc.N (toZ E.par.enc.N ((I i).e j k)) (encSize E S) := fun i hi j hj k hk =>
    (hc i hi j hj k hk).bnd h (fun t => (hS i hi j hj k t).1)
  have hmb : ∀ i < E.par.batch, ∀ j ≤ E.par.mat.cols, ∀ k < E.par.mlweRank + E.par.inRank,
      Bnd E.par.enc.N (toZ E.par.enc.N ((I i).m j k)) S := by
    intro i hi j hj k hk
    rw [hm i hi j hj k hk]
    apply Bnd.of_list (by simp)
    intro c hc
    obtain ⟨t, -, rfl⟩ := List.mem_map.mp hc
    exact (hS i hi j hj k t).2
  have hrem : ∀ {z : List Int} {n : Nat}, z.length = E.par.enc.N →
      (∀ r ∈ z, 0 ≤ r ∧ r < 2 ^ n) → Bnd E.par.enc.N (toZ E.par.enc.N z) (2 ^ n) := by
    intro z n hz hr
    apply Bnd.of_list hz
    intro c hc
    have := hr c hc
    have h2 : ((2 ^ n : Nat) : Int) = 2 ^ n := by push_cast; ring
    omega
  have bt : ∀ l, ∃ z : List Int, l < E.par.dcmpLen → z.length = E.par.enc.N ∧
      toZ E.par.enc.N z = (∑ i ∈ range E.par.batch, toZ E.par.enc.N (E.betInt x com i) *
        toZ E.par.enc.N ((I i).t (l / E.par.inRank) (l % E.par.inRank))) ∧
      ∀ c ∈ z, c.natAbs ≤ batchGrow E (truncMax E) := by
    intro l
    by_cases hl : l < E.par.dcmpLen
    · have h1 : l / E.par.inRank ≤ E.par.mat.cols := by
        rw [h.dcmp] at hl
        exact Nat.lt_succ_iff.mp (Nat.div_lt_of_lt_mul (by rwa [Nat.mul_comm]))
      have h2 : l % E.par.inRank < E.par.inRank := Nat.mod_lt _ h.inRank
      obtain ⟨z, hz⟩ := batch_bnd h x com
        (fun i => toZ E.par.enc.N ((I i).t (l / E.par.inRank) (l % E.par.inRank))) _
        (fun i hi => (ho i hi).truncBnd h1 h2)
      exact ⟨z, fun _ => hz⟩
    · exact ⟨[], fun h => absurd h hl⟩
  choose t ht using bt
  have bs : ∀ k, ∃ z : List Int, k < E.par.outRank → z.length = E.par.enc.N ∧
      toZ E.par.enc.N z = (-∑ i ∈ range E.par.batch, toZ E.par.enc.N (E.betInt x com i) *
        toZ E.par.enc.N ((I i).sig k)) ∧
      ∀ c ∈ z, c.natAbs ≤ batchGrow E (2 ^ E.par.outCut) := by
    intro k
    by_cases hk : k < E.par.outRank
    · obtain ⟨z, hz⟩ := (batch_bnd h x com (fun i => toZ E.par.enc.N ((I i).sig k)) _
        (fun i hi => hrem ((ho i hi).outerRem k hk).1 ((ho i hi).outerRem k hk).2)).neg
      exact ⟨z, fun _ => hz⟩
    · exact ⟨[], fun h => absurd h hk⟩
  choose s hs using bs
  have be : ∀ k, ∃ z : List Int, k < E.par.mat.rows → z.length = E.par.enc.N ∧
      toZ E.par.enc.N z = (∑ i ∈ range E.par.batch, toZ E.par.enc.N (E.betInt x com i) *
      (toZ E.par.enc.N ((I i).e E.par.mat.cols k) + ∑ j ∈ range E.par.mat.cols,
        toZ E.par.enc.N (E.gamInt x com pf.parts pf.partMask j) * toZ E.par.enc.N ((I i).e j k))) ∧
      ∀ c ∈ z, c.natAbs ≤ combGrow E (encSize E S) := by
    intro k
    by_cases hk : k < E.par.mat.rows
    · obtain ⟨z, hz⟩ := comb_bnd h x com pf.parts pf.partMask (fun i j => toZ E.par.enc.N ((I i).e j k)) _
        (fun i hi j hj => he i hi j hj k hk)
      exact ⟨z, fun _ => hz⟩
    · exact ⟨[], fun h => absurd h hk⟩
  choose e hee using be
  have bm : ∀ k, ∃ z : List Int, k < E.par.mlweRank + E.par.inRank → z.length = E.par.enc.N ∧
      toZ E.par.enc.N z = (∑ i ∈ range E.par.batch, toZ E.par.enc.N (E.betInt x com i) *
      (toZ E.par.enc.N ((I i).m E.par.mat.cols k) + ∑ j ∈ range E.par.mat.cols,
        toZ E.par.enc.N (E.gamInt x com pf.parts pf.partMask j) * toZ E.par.enc.N ((I i).m j k))) ∧
      ∀ c ∈ z, c.natAbs ≤ combGrow E S := by
    intro k
    by_cases hk : k < E.par.mlweRank + E.par.inRank
    · obtain ⟨z, hz⟩ := comb_bnd h x com pf.parts pf.partMask (fun i j => toZ E.par.enc.N ((I i).m j k)) _
        (fun i hi j hj => hmb i hi j hj k hk)
      exact ⟨z, fun _ => hz⟩
    · exact ⟨[], fun h => absurd h hk⟩
  choose m hmm using bm
  have bu : ∀ k, ∃ z : List Int, k < E.par.inRank → z.length = E.par.enc.N ∧
      toZ E.par.enc.N z = (-∑ i ∈ range E.par.batch, toZ E.par.enc.N (E.betInt x com i) *
      (toZ E.par.enc.N ((I i).rho E.par.mat.cols k) + ∑ j ∈ range E.par.mat.cols,
        toZ E.par.enc.N (E.gamInt x com pf.parts pf.partMask j) * toZ E.par.enc.N ((I i).rho j k))) ∧
      ∀ c ∈ z, c.natAbs ≤ combGrow E (2 ^ E.par.inCut) := by
    intro k
    by_cases hk : k < E.par.inRank
    · obtain ⟨z, hz⟩ := (comb_bnd h x com pf.parts pf.partMask
        (fun i j => toZ E.par.enc.N ((I i).rho j k)) _
        (fun i hi j hj => hrem ((ho i hi).innerRem j hj k hk).1 ((ho i hi).innerRem j hj k hk).2)).neg
      exact ⟨z, fun _ => hz⟩
    · exact ⟨[], fun h => absurd h hk⟩
  choose u hu using bu
  have bf : ∀ j, ∃ z : List Int, j < E.par.mat.cols → z.length = E.par.enc.N ∧
      toZ E.par.enc.N z = (∑ k ∈ range E.par.mat.rows, toZ E.par.enc.N (E.leftInt x k) *
      ∑ i ∈ range E.par.batch, toZ E.par.enc.N (E.betInt x com i) * toZ E.par.enc.N ((I i).e j k)) ∧
      ∀ c ∈ z, c.natAbs ≤ E.par.mat.rows *
        (E.par.enc.N * (E.par.enc.ecd.base * batchGrow E (encSize E S))) := by
    intro j
    by_cases hj : j < E.par.mat.cols
    · obtain ⟨z, hz⟩ := Bnd.sum E.par.mat.rows (fun k => toZ E.par.enc.N (E.leftInt x k) *
        ∑ i ∈ range E.par.batch, toZ E.par.enc.N (E.betInt x com i) * toZ E.par.enc.N ((I i).e j k)) _
        (fun k hk => (leftInt_bnd h x k).mul
          (batch_bnd h x com _ _ (fun i hi => he i hi j hj.le k hk)))
      exact ⟨z, fun _ => hz⟩
    · exact ⟨[], fun h => absurd h hj⟩
  choose f hf using bf
  refine ⟨⟨t, s, e, m, u, f⟩, ⟨?_, fun k hk => ⟨(hs k hk).1, (hs k hk).2.1⟩,
    fun k hk => ⟨(hee k hk).1, (hee k hk).2.1⟩, fun k hk => ⟨(hmm k hk).1, (hmm k hk).2.1⟩,
    fun k hk => ⟨(hu k hk).1, (hu k hk).2.1⟩, fun k hk => ⟨(hf k hk).1, (hf k hk).2.1⟩⟩,
    fun l hl => ⟨(ht l hl).1, (ht l hl).2.2⟩, fun k hk => (hs k hk).2.2, fun k hk => (hee k hk).2.2,
    fun k hk => (hmm k hk).2.2, fun k hk => (hu k hk).2.2, fun k hk => (hf k hk).2.2⟩
  intro j hj k hk
  have hl : j * E.par.inRank + k < E.par.dcmpLen := by
    rw [h.dcmp]
    have := Nat.mul_le_mul_right E.par.inRank hj
    rw [Nat.succ_mul]
    omega
  have h1 : (j * E.par.inRank + k) / E.par.inRank = j := by
    rw [Nat.mul_comm, Nat.mul_add_div h.inRank, Nat.div_eq_of_lt hk, Nat.add_zero]
  have h2 : (j * E.par.inRank + k) % E.par.inRank = k := by
    rw [Nat.mul_comm, Nat.mul_add_mod, Nat.mod_eq_of_lt hk]
  have h3 := ht _ hl
  rw [h1, h2] at h3
  exact ⟨h3.1, h3.2.1⟩

end JEnv

end Ringo
