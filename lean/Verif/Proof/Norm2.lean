import Verif.Proof.Prov
import Verif.Props.Linear

/-!
# What the prover writes for two-norm and approximate constraints
-/

namespace Ringo

open Finset

section
variable {p : Nat} [Fact p.Prime]

/-! ## Two norm, several entries -/

/-- One turn of the prover's loop over the two-norm entries. -/
def twoStep (rank : Nat) (s : List (List (ZMod p)) × List (List (ZMod p)) × Nat) (e : TwoEntry) :
    Go (List (List (ZMod p)) × List (List (ZMod p)) × Nat) := do
  let base ← decomposeBase e.bound
  let pw ← fillTwoPub e s.1
  let sqNm ← forRange 0 rank 1 s.2.2 (fun sqNm i => do
    let x ← idx2 s.2.1 e.id i
    pure (sqNm + x.val * x.val))
  let sqNm := sqNm % p
  let dcmp := decomposeBig sqNm base p
  let sw ← forRange 0 dcmp.length 1 s.2.1 (fun sw i => do
    let d ← idx dcmp i
    set2 sw e.dcmp i ((d : Int) : ZMod p))
  pure (pw, sw, sqNm)

theorem fillTwo_eq (rank : Nat) (order : List TwoEntry) (s : List (List (ZMod p)) × List (List (ZMod p))) :
    fillTwo rank order s = (do
      let r ← order.foldlM (twoStep rank) (s.1, s.2, 0)
      pure (r.1, r.2.1)) := rfl

/-- An entry of the two-norm map for tables with `m` public and `n` secret slots of `N` elements. -/
structure TwoOK (m n N : Nat) (e : TwoEntry) : Prop where
  base : e.base < m
  mask : e.mask < m
  ne : e.base ≠ e.mask
  id : e.id < n
  dcmp : e.dcmp < n
  bound : 2 ≤ e.bound
  fit : ∀ b, decomposeBase e.bound = .ok b → b.length ≤ N

theorem twoStep_spec {m n N : Nat} {e : TwoEntry} (he : TwoOK m n N e) {base : List Nat}
    (hb : decomposeBase e.bound = .ok base) (pw sw : List (List (ZMod p))) (a : Nat)
    (hp : Shape m N pw) (hs : Shape n N sw) :
    ∃ pw' sw', twoStep N (pw, sw, a) e = .ok (pw', sw', (a + sqNorm N sw e.id) % p) ∧
      fillTwoPub e pw = .ok pw' ∧ Shape m N pw' ∧ Shape n N sw' ∧
      (∀ i, cell sw' e.dcmp i = if i < base.length then
        (((decomposeBig ((a + sqNorm N sw e.id) % p) base p).getD i 0 : Int) : ZMod p)
        else cell sw e.dcmp i) ∧
      (∀ b, b ≠ e.dcmp → ∀ i, cell sw' b i = cell sw b i) := by
  obtain ⟨pw', p1, p2, -⟩ := fillTwoPub_spec e he.base he.mask he.ne hb (he.fit base hb) pw hp
  have hN := he.fit base hb
  have hsq : forRange 0 N 1 a (fun sqNm i => do
      let x ← idx2 sw e.id i
      pure (sqNm + x.val * x.val)) = .ok (a + sqNorm N sw e.id) := by
    obtain ⟨s, a1, a2⟩ := forRange_spec (f := fun (sqNm : Nat) i => do
      let x ← idx2 sw e.id i
      pure (sqNm + x.val * x.val)) 0 N (Nat.zero_le _)
      (fun k s => s = a + ∑ i ∈ range k, (cell sw e.id i).val * (cell sw e.id i).val) a (by simp) (by
        rintro i s _ hi rfl
        refine ⟨_, by rw [idx2_cell hs he.id hi, go_bind_ok]; rfl, ?_⟩
        rw [sum_range_succ, Nat.add_assoc])
    rw [a1, a2]; rfl
  set ds := decomposeBig ((a + sqNorm N sw e.id) % p) base p with hds
  have hdl : ds.length = base.length := greedy_length _ _
  obtain ⟨sw', c1, c2, c3, c4⟩ := forRange_spec
    (f := fun (sw : List (List (ZMod p))) i => do
      let d ← idx ds i
      set2 sw e.dcmp i ((d : Int) : ZMod p)) 0 ds.length (Nat.zero_le _)
    (fun k s => Shape n N s ∧
      (∀ i, cell s e.dcmp i = if i < k then ((ds.getD i 0 : Int) : ZMod p) else cell sw e.dcmp i) ∧
      (∀ b, b ≠ e.dcmp → ∀ i, cell s b i = cell sw b i))
    sw ⟨hs, by simp, by simp⟩ (by
      rintro i s _ hi ⟨s1, s2, s3⟩
      obtain ⟨t, t1, t2, t3⟩ := set2_spec s1 he.dcmp (by omega : i < N) ((ds.getD i 0 : Int) : ZMod p)
      refine ⟨t, ?_, t2, ?_, ?_⟩
      · have : idx ds i = .ok (ds.getD i 0) := by
          rw [idx_ok hi, List.getD_eq_getElem?_getD, List.getElem?_eq_getElem hi]; rfl
        simp only [this, go_bind_ok, t1]
      · intro j
        rw [t3]
        by_cases hj : j = i
        · subst hj; simp
        · rw [if_neg (by tauto), s2]
          by_cases hji : j < i
          · rw [if_pos hji, if_pos (by omega)]
          · rw [if_neg hji, if_neg (by omega)]
      · intro b hb1 j
        rw [t3, if_neg (by tauto), s3 b hb1])
  refine ⟨pw', sw', ?_, p1, p2, c2, ?_, c4⟩
  · unfold twoStep
    simp only [hb, p1, go_bind_ok, hsq]
    rw [← hds, c1]
    rfl
  · rw [← hdl]; exact c3

/-- The entries do not get into each other's way. -/
structure TwoOrder (m n N : Nat) (order : List TwoEntry) : Prop where
  ok : ∀ e ∈ order, TwoOK m n N e
  sep : ∀ e ∈ order, ∀ e' ∈ order, e.id ≠ e'.dcmp
  disj : order.Pairwise (fun e e' => e.dcmp ≠ e'.dcmp)
  pub : order.Pairwise (fun e e' => e.base ≠ e'.base ∧ e.base ≠ e'.mask ∧ e.mask ≠ e'.base ∧
    e.mask ≠ e'.mask)

theorem sqNorm_congr {N : Nat} {sw sw' : List (List (ZMod p))} {w : Nat}
    (h : ∀ i, cell sw' w i = cell sw w i) : sqNorm N sw' w = sqNorm N sw w := by
  unfold sqNorm
  exact sum_congr rfl (fun i _ => by rw [h])

/-- What is written for each entry: the digits of the running sum of the squared norms of the entries
visited so far. -/
theorem twoFold_spec {m n N : Nat} (order : List TwoEntry) :
    ∀ (pw sw : List (List (ZMod p))) (a : Nat), TwoOrder m n N order → Shape m N pw → Shape n N sw →
    ∃ pw' sw' a', order.foldlM (twoStep N) (pw, sw, a) = .ok (pw', sw', a') ∧
      order.foldlM (fun pw e => fillTwoPub e pw) pw = .ok pw' ∧ Shape m N pw' ∧ Shape n N sw' ∧
      (∀ pre e post, order = pre ++ e :: post → ∀ base, decomposeBase e.bound = .ok base → ∀ i,
        cell sw' e.dcmp i = if i < base.length then
          (((decomposeBig ((a + (pre.map (fun e => sqNorm N sw e.id)).sum + sqNorm N sw e.id) % p)
            base p).getD i 0 : Int) : ZMod p) else cell sw e.dcmp i) ∧
      (∀ b, (∀ e ∈ order, b ≠ e.dcmp) → ∀ i, cell sw' b i = cell sw b i) ∧
      (∀ e ∈ order, ∀ base, decomposeBase e.bound = .ok base → ∀ i,
        (cell pw' e.base i = if i < base.length then ((base.getD i 0 : Nat) : ZMod p)
          else cell pw e.base i) ∧
        (cell pw' e.mask i = if i < base.length then 1 else cell pw e.mask i)) ∧
      (∀ b, (∀ e ∈ order, b ≠ e.base ∧ b ≠ e.mask) → ∀ i, cell pw' b i = cell pw b i) := by
  induction order with
  | nil => intro pw sw a _ hp hs; exact ⟨pw, sw, a, rfl, rfl, hp, hs, by simp, by simp, by simp, by simp⟩
  | cons e order ih =>
    intro pw sw a ho hp hs
    have he := ho.ok e (by simp)
    obtain ⟨base, hb, -⟩ := decomposeBase_spec e.bound he.bound
    obtain ⟨pw1, sw1, a1, a2, a3, a4, a5, a6⟩ := twoStep_spec he hb pw sw a hp hs
    obtain ⟨pw1', q1, q2, q3, q4, q5⟩ := fillTwoPub_spec e he.base he.mask he.ne hb (he.fit base hb) pw hp
    rw [a2] at q1; cases q1
    obtain ⟨hd1, hd2⟩ := List.pairwise_cons.mp ho.disj
    obtain ⟨hp1, hp2⟩ := List.pairwise_cons.mp ho.pub
    obtain ⟨pw', sw', a', b1, b2, b3, b4, b5, b6, b7, b8⟩ := ih pw1 sw1 ((a + sqNorm N sw e.id) % p)
      ⟨fun e he => ho.ok e (by simp [he]),
        fun e he e' he' => ho.sep e (by simp [he]) e' (by simp [he']), hd2, hp2⟩ a3 a4
    refine ⟨pw', sw', a', ?_, ?_, b3, b4, ?_, ?_, ?_, ?_⟩
    · rw [List.foldlM_cons, a1, go_bind_ok, b1]
    · rw [List.foldlM_cons, a2, go_bind_ok, b2]
    · intro pre e' post heq base' hb' i
      cases pre with
      | nil =>
        simp only [List.nil_append, List.cons.injEq] at heq
        obtain ⟨rfl, rfl⟩ := heq
        rw [hb] at hb'; cases hb'
        rw [b6 _ (fun e'' he'' => hd1 e'' he'') i, a5 i]
        simp
      | cons e'' pre =>
        simp only [List.cons_append, List.cons.injEq] at heq
        obtain ⟨rfl, rfl⟩ := heq
        have hn : ∀ f ∈ pre ++ e' :: post, sqNorm N sw1 f.id = sqNorm N sw f.id := fun f hf =>
          sqNorm_congr (a6 _ (ho.sep f (List.mem_cons_of_mem _ hf) e (by simp)))
        rw [b5 pre e' post rfl base' hb' i, hn e' (by simp),
          a6 _ (fun h => hd1 e' (by simp) h.symm)]
        have h1 : (pre.map (fun e => sqNorm N sw1 e.id)) = pre.map (fun e => sqNorm N sw e.id) :=
          List.map_congr_left (fun e' he' => hn e' (by simp [he']))
        rw [h1]
        have h2 : ((a + sqNorm N sw e.id) % p + (pre.map (fun e => sqNorm N sw e.id)).sum +
            sqNorm N sw e'.id) % p = (a + ((e :: pre).map (fun e => sqNorm N sw e.id)).sum +
            sqNorm N sw e'.id) % p := by
          rw [List.map_cons, List.sum_cons, Nat.add_assoc, Nat.mod_add_mod]
          congr 1; ring
        rw [h2]
    · intro b hb' i
      rw [b6 b (fun e he => hb' e (by simp [he])) i, a6 b (hb' e (by simp)) i]
    · intro e' he' base' hb' i
      rcases List.mem_cons.mp he' with rfl | he'
      · rw [hb] at hb'; cases hb'
        rw [b8 e'.base (fun e hm => ⟨(hp1 e hm).1, (hp1 e hm).2.1⟩) i,
          b8 e'.mask (fun e hm => ⟨(hp1 e hm).2.2.1, (hp1 e hm).2.2.2⟩) i]
        exact ⟨q3 i, q4 i⟩
      · obtain ⟨r1, r2⟩ := b7 e' he' base' hb' i
        obtain ⟨t1, t2, t3, t4⟩ := hp1 e' he'
        rw [r1, r2, q5 e'.base (Ne.symm t1) (Ne.symm t3), q5 e'.mask (Ne.symm t2) (Ne.symm t4)]
        exact ⟨rfl, rfl⟩
    · intro b hb' i
      rw [b8 b (fun e he => hb' e (by simp [he])) i]
      exact q5 b (hb' e (by simp)).1 (hb' e (by simp)).2 i

/-! ## Projections -/

/-- A projection matrix for rank `N`. -/
def GoodProj (N : Nat) (proj : List (List Bool)) : Prop :=
  proj.length = 128 ∧ ∀ r ∈ proj, r.length = N

theorem projMatrix_good (xof : Bytes → Nat → UInt8) (seed : Bytes) (N : Nat) :
    GoodProj N (projMatrix xof seed N) := by
  unfold projMatrix
  refine ⟨by simp, ?_⟩
  intro r hr
  obtain ⟨i, -, rfl⟩ := List.mem_map.mp hr
  simp

/-- Row `i` of the projection of a vector. -/
def projVal (N : Nat) (proj : List (List Bool)) (v : List (ZMod p)) (i : Nat) : ZMod p :=
  if i < 128 then ∑ j ∈ range N, (if (proj.getD i []).getD j false then v.getD j 0 else 0) else 0

/-- The projection of a vector. -/
def projVec (N : Nat) (proj : List (List Bool)) (v : List (ZMod p)) : List (ZMod p) :=
  (List.range N).map (projVal N proj v)

theorem proj_apply {N : Nat} (hN : 128 ≤ N) {proj : List (List Bool)} (hg : GoodProj N proj)
    (out v : List (ZMod p)) (ho : out.length = N) (hv : v.length = N) :
    (projChecker proj).transformTo out v = .ok (projVec N proj v) := by
  obtain ⟨w, w1, w2, w3⟩ := (C33_projChecker (F := ZMod p) N hN proj hg.1 hg.2).2 out v ho hv
  rw [w1]
  congr 1
  apply List.ext_getElem?
  intro i
  unfold projVec
  by_cases hi : i < N
  · rw [w3 i hi, List.getElem?_map, List.getElem?_range hi]; rfl
  · rw [List.getElem?_eq_none (by omega), List.getElem?_eq_none (by simp; omega)]

theorem projVec_length (N : Nat) (proj : List (List Bool)) (v : List (ZMod p)) :
    (projVec N proj v).length = N := by simp [projVec]

theorem projVec_getD {N : Nat} (proj : List (List Bool)) (v : List (ZMod p)) {i : Nat} (hi : i < N) :
    (projVec N proj v).getD i 0 = projVal N proj v i := by
  unfold projVec
  rw [List.getD_eq_getElem?_getD, List.getElem?_map, List.getElem?_range hi]; rfl

theorem setRow_spec {n N : Nat} {sw : List (List (ZMod p))} (h : Shape n N sw) {a : Nat} (ha : a < n)
    (r : List (ZMod p)) (hr : r.length = N) :
    ∃ sw', setIdx sw a r = .ok sw' ∧ Shape n N sw' ∧ sw'.getD a [] = r ∧
      ∀ b, b ≠ a → sw'.getD b [] = sw.getD b [] := by
  have hl := h.1
  refine ⟨sw.set a r, setIdx_ok (by omega), ⟨by simp [hl], ?_⟩, ?_, ?_⟩
  · intro v hv
    rcases List.mem_or_eq_of_mem_set hv with hv | hv
    · exact h.2 v hv
    · rw [hv]; exact hr
  · rw [List.getD_eq_getElem?_getD, List.getElem?_set_self (by omega)]; rfl
  · intro b hb
    rw [List.getD_eq_getElem?_getD, List.getElem?_set_ne (Ne.symm hb), ← List.getD_eq_getElem?_getD]

/-- The first loop: the projections. -/
theorem projLoop_spec {n N : Nat} (hN : 128 ≤ N) {proj : List (List Bool)} (hg : GoodProj N proj)
    (order : List ProjEntry) : ∀ (sw : List (List (ZMod p))), Shape n N sw →
      (∀ e ∈ order, e.id < n ∧ e.proj < n) → (∀ e ∈ order, ∀ e' ∈ order, e.id ≠ e'.proj) →
      order.Pairwise (fun e e' => e.proj ≠ e'.proj) →
    ∃ sw', order.foldlM (fun sw e => do
        let out ← idx sw e.proj
        let v ← idx sw e.id
        let out ← (projChecker proj).transformTo out v
        setIdx sw e.proj out) sw = .ok sw' ∧ Shape n N sw' ∧
      (∀ e ∈ order, sw'.getD e.proj [] = projVec N proj (sw.getD e.id [])) ∧
      (∀ b, (∀ e ∈ order, b ≠ e.proj) → sw'.getD b [] = sw.getD b []) := by
  induction order with
  | nil => intro sw hs _ _ _; exact ⟨sw, rfl, hs, by simp, by simp⟩
  | cons e order ih =>
    intro sw hs hlt hsep hd
    obtain ⟨h1, h2⟩ := hlt e (by simp)
    obtain ⟨hd1, hd2⟩ := List.pairwise_cons.mp hd
    have r1 := hs.row h1
    have r2 := hs.row h2
    obtain ⟨s1, a1, a2, a3, a4⟩ := setRow_spec hs h2 (projVec N proj (sw.getD e.id []))
      (projVec_length _ _ _)
    obtain ⟨s2, b1, b2, b3, b4⟩ := ih s1 a2 (fun e he => hlt e (by simp [he]))
      (fun e he e' he' => hsep e (by simp [he]) e' (by simp [he'])) hd2
    refine ⟨s2, ?_, b2, ?_, ?_⟩
    · rw [List.foldlM_cons, r2.2, go_bind_ok, r1.2, go_bind_ok, proj_apply hN hg _ _ r2.1 r1.1,
        go_bind_ok, a1, go_bind_ok, b1]
    · intro e' he'
      rcases List.mem_cons.mp he' with rfl | he'
      · rw [b4 _ (fun e he => hd1 e he), a3]
      · rw [b3 e' he', a4 _ (hsep e' (by simp [he']) e (by simp))]
    · intro b hb
      rw [b4 b (fun e he => hb e (by simp [he])), a4 b (hb e (by simp))]

/-- The second loop, one entry: the digits of 128 projections. -/
theorem projDigits_spec {n N : Nat} {e : ProjInfEntry} (h1 : e.id < n) (h2 : e.dcmp < n)
    (hne : e.id ≠ e.dcmp) {base : List Nat} (hb : decomposeBase e.bound = .ok base)
    (hN : 128 * base.length ≤ N) (h128 : 128 ≤ N) (sw : List (List (ZMod p))) (hs : Shape n N sw) :
    ∃ sw', forRange 0 128 1 sw (fun sw i => do
        let x ← idx2 sw e.id i
        let dcmp := decomposeBig x.val base p
        forRange 0 base.length 1 sw (fun sw j => do
          let d ← idx dcmp j
          set2 sw e.dcmp (i * base.length + j) ((d : Int) : ZMod p))) = .ok sw' ∧ Shape n N sw' ∧
      (∀ i < 128, ∀ j < base.length, cell sw' e.dcmp (i * base.length + j) =
        (((decomposeBig (cell sw e.id i).val base p).getD j 0 : Int) : ZMod p)) ∧
      (∀ k, 128 * base.length ≤ k → cell sw' e.dcmp k = cell sw e.dcmp k) ∧
      (∀ b, b ≠ e.dcmp → ∀ i, cell sw' b i = cell sw b i) := by
  obtain ⟨sw', c1, c2, c3, c4, c5⟩ := forRange_spec
    (f := fun (sw : List (List (ZMod p))) i => do
        let x ← idx2 sw e.id i
        let dcmp := decomposeBig x.val base p
        forRange 0 base.length 1 sw (fun sw j => do
          let d ← idx dcmp j
          set2 sw e.dcmp (i * base.length + j) ((d : Int) : ZMod p))) 0 128 (Nat.zero_le _)
    (fun k s => Shape n N s ∧
      (∀ i < k, ∀ j < base.length, cell s e.dcmp (i * base.length + j) =
        (((decomposeBig (cell sw e.id i).val base p).getD j 0 : Int) : ZMod p)) ∧
      (∀ l, k * base.length ≤ l → cell s e.dcmp l = cell sw e.dcmp l) ∧
      (∀ b, b ≠ e.dcmp → ∀ i, cell s b i = cell sw b i))
    sw ⟨hs, by simp, by simp, by simp⟩ (by
      rintro i s _ hi ⟨s1, s2, s3, s4⟩
      set ds := decomposeBig (cell sw e.id i).val base p with hds
      have hdl : ds.length = base.length := greedy_length _ _
      have hx : cell s e.id i = cell sw e.id i := s4 _ hne i
      have hroom : ∀ j < base.length, i * base.length + j < N := by
        intro j hj
        have : (i + 1) * base.length ≤ 128 * base.length := Nat.mul_le_mul_right _ (by omega)
        rw [Nat.add_mul] at this
        omega
      obtain ⟨t, t1, t2, t3, t4⟩ := forRange_spec
        (f := fun (sw : List (List (ZMod p))) j => do
          let d ← idx ds j
          set2 sw e.dcmp (i * base.length + j) ((d : Int) : ZMod p)) 0 base.length (Nat.zero_le _)
        (fun k u => Shape n N u ∧
          (∀ l, cell u e.dcmp l = if i * base.length ≤ l ∧ l < i * base.length + k then
            ((ds.getD (l - i * base.length) 0 : Int) : ZMod p) else cell s e.dcmp l) ∧
          (∀ b, b ≠ e.dcmp → ∀ i, cell u b i = cell s b i))
        s ⟨s1, by intro l; rw [if_neg (by omega)], by simp⟩ (by
          rintro j u _ hj ⟨u1, u2, u3⟩
          obtain ⟨v, v1, v2, v3⟩ := set2_spec u1 h2 (hroom j hj) ((ds.getD j 0 : Int) : ZMod p)
          refine ⟨v, ?_, v2, ?_, ?_⟩
          · have : idx ds j = .ok (ds.getD j 0) := by
              rw [idx_ok (by omega), List.getD_eq_getElem?_getD, List.getElem?_eq_getElem (by omega)]; rfl
            simp only [this, go_bind_ok, v1]
          · intro l
            rw [v3]
            by_cases hl : l = i * base.length + j
            · subst hl
              rw [if_pos ⟨rfl, rfl⟩, if_pos (by omega), Nat.add_sub_cancel_left]
            · rw [if_neg (by tauto), u2]
              by_cases hc : i * base.length ≤ l ∧ l < i * base.length + j
              · rw [if_pos hc, if_pos (by omega)]
              · rw [if_neg hc, if_neg (by omega)]
          · intro b hb' l
            rw [v3, if_neg (by tauto), u3 b hb'])
      refine ⟨t, ?_, t2, ?_, ?_, ?_⟩
      · simp only [idx2_cell s1 h1 (by omega : i < N), go_bind_ok, hx]
        exact t1
      · intro i' hi' j hj
        rw [t3]
        by_cases hii : i' = i
        · subst hii
          rw [if_pos (by omega), Nat.add_sub_cancel_left]
        · rw [if_neg, s2 i' (by omega) j hj]
          have : (i' + 1) * base.length ≤ i * base.length := Nat.mul_le_mul_right _ (by omega)
          rw [Nat.add_mul] at this
          omega
      · intro l hl
        rw [Nat.add_mul] at hl
        rw [t3, if_neg (by omega), s3 l (by omega)]
      · intro b hb' l
        rw [t4 b hb', s4 b hb'])
  exact ⟨sw', c1, c2, c3, c4, c5⟩

/-- The second loop. -/
theorem projInfLoop_spec {n N : Nat} (h128 : 128 ≤ N) (order : List ProjInfEntry) :
    ∀ (sw : List (List (ZMod p))), Shape n N sw →
      (∀ e ∈ order, e.id < n ∧ e.dcmp < n ∧ ∃ base, decomposeBase e.bound = .ok base ∧
        128 * base.length ≤ N) →
      (∀ e ∈ order, ∀ e' ∈ order, e.id ≠ e'.dcmp) →
      order.Pairwise (fun e e' => e.dcmp ≠ e'.dcmp) →
    ∃ sw', order.foldlM (fun sw e => do
        let base ← decomposeBase e.bound
        forRange 0 128 1 sw (fun sw i => do
          let x ← idx2 sw e.id i
          let dcmp := decomposeBig x.val base p
          forRange 0 base.length 1 sw (fun sw j => do
            let d ← idx dcmp j
            set2 sw e.dcmp (i * base.length + j) ((d : Int) : ZMod p)))) sw = .ok sw' ∧ Shape n N sw' ∧
      (∀ e ∈ order, ∀ base, decomposeBase e.bound = .ok base →
        (∀ i < 128, ∀ j < base.length, cell sw' e.dcmp (i * base.length + j) =
          (((decomposeBig (cell sw e.id i).val base p).getD j 0 : Int) : ZMod p)) ∧
        (∀ k, 128 * base.length ≤ k → cell sw' e.dcmp k = cell sw e.dcmp k)) ∧
      (∀ b, (∀ e ∈ order, b ≠ e.dcmp) → ∀ i, cell sw' b i = cell sw b i) := by
  induction order with
  | nil => intro sw hs _ _ _; exact ⟨sw, rfl, hs, by simp, by simp⟩
  | cons e order ih =>
    intro sw hs hlt hsep hd
    obtain ⟨h1, h2, base, hb, hN⟩ := hlt e (by simp)
    obtain ⟨hd1, hd2⟩ := List.pairwise_cons.mp hd
    obtain ⟨s1, a1, a2, a3, a4, a5⟩ := projDigits_spec h1 h2 (hsep e (by simp) e (by simp)) hb hN h128 sw hs
    obtain ⟨s2, b1, b2, b3, b4⟩ := ih s1 a2 (fun e he => hlt e (by simp [he]))
      (fun e he e' he' => hsep e (by simp [he]) e' (by simp [he'])) hd2
    refine ⟨s2, ?_, b2, ?_, ?_⟩
    · rw [List.foldlM_cons, hb]
      simp only [go_bind_ok]
      rw [a1, go_bind_ok, b1]
    · intro e' he' base' hb'
      rcases List.mem_cons.mp he' with rfl | he'
      · rw [hb] at hb'; cases hb'
        have := b4 e'.dcmp (fun e he => hd1 e he)
        constructor
        · intro i hi j hj
          rw [this, a3 i hi j hj]
        · intro k hk
          rw [this, a4 k hk]
      · obtain ⟨r1, r2⟩ := b3 e' he' base' hb'
        constructor
        · intro i hi j hj
          rw [r1 i hi j hj, a5 e'.id (hsep e' (by simp [he']) e (by simp))]
        · intro k hk
          rw [r2 k hk, a5 _ (fun h => hd1 e' he' h.symm)]
    · intro b hb' i
      rw [b4 b (fun e he => hb' e (by simp [he])) i, a5 b (hb' e (by simp)) i]

end

end Ringo
