import Verif.Model.Piop
import Verif.Props.Digits
import Verif.Proof.Linear2
import Verif.Spec.Piop

/-!
# The slots the prover fills itself
-/

namespace Ringo

open Finset

section
variable {p : Nat} [Fact p.Prime]

/-- Row `i` of slot `a`. -/
def cell (sw : List (List (ZMod p))) (a i : Nat) : ZMod p := (sw.getD a []).getD i 0

/-- `n` slots of length `N`. -/
def Shape (n N : Nat) (sw : List (List (ZMod p))) : Prop :=
  sw.length = n ∧ ∀ v ∈ sw, v.length = N

omit [Fact p.Prime] in
theorem Shape.row {n N : Nat} {sw : List (List (ZMod p))} (h : Shape n N sw) {a : Nat} (ha : a < n) :
    (sw.getD a []).length = N ∧ idx sw a = .ok (sw.getD a []) := by
  have hl := h.1
  have : sw[a]? = some (sw.getD a []) := by
    rw [List.getD_eq_getElem?_getD, List.getElem?_eq_getElem (by omega)]; rfl
  exact ⟨h.2 _ (List.mem_of_getElem? this), by
    rw [idx_ok (by omega : a < sw.length), List.getD_eq_getElem?_getD,
      List.getElem?_eq_getElem (by omega)]; rfl⟩

theorem idx2_cell {n N : Nat} {sw : List (List (ZMod p))} (h : Shape n N sw) {a i : Nat} (ha : a < n)
    (hi : i < N) : idx2 sw a i = .ok (cell sw a i) := by
  obtain ⟨h1, h2⟩ := h.row ha
  unfold idx2
  rw [h2, go_bind_ok, idx_ok (by omega)]
  unfold cell
  rw [List.getD_eq_getElem?_getD (i := i), List.getElem?_eq_getElem (by omega)]; rfl

theorem set2_spec {n N : Nat} {sw : List (List (ZMod p))} (h : Shape n N sw) {a i : Nat} (ha : a < n)
    (hi : i < N) (x : ZMod p) :
    ∃ sw', set2 sw a i x = .ok sw' ∧ Shape n N sw' ∧
      (∀ b j, cell sw' b j = if b = a ∧ j = i then x else cell sw b j) := by
  obtain ⟨h1, h2⟩ := h.row ha
  have hl := h.1
  unfold set2
  rw [h2, go_bind_ok, setIdx_ok (by omega), go_bind_ok, setIdx_ok (by omega)]
  refine ⟨_, rfl, ⟨by simp [hl], ?_⟩, ?_⟩
  · intro v hv
    rcases List.mem_or_eq_of_mem_set hv with hv | rfl
    · exact h.2 v hv
    · simpa using h1
  · intro b j
    unfold cell
    by_cases hb : b = a
    · subst hb
      rw [List.getD_eq_getElem?_getD (i := b), List.getElem?_set_self (by omega), Option.getD_some]
      rw [getD_set _ _ _ _ (by omega)]
      by_cases hj : j = i <;> simp [hj]
    · rw [List.getD_eq_getElem?_getD (i := b), List.getElem?_set_ne (by omega),
        ← List.getD_eq_getElem?_getD, if_neg (by tauto)]

/-! ## Infinity norm -/

theorem digits_write {n N : Nat} (i : Nat) (hi : i < N) (ds : List Int) :
    ∀ (ws : List Nat) (k : Nat) (sw : List (List (ZMod p))), Shape n N sw → ws.Nodup →
      (∀ w ∈ ws, w < n) → ws.length + k ≤ ds.length →
      ∃ sw', (ws.zipIdx k).foldlM (fun sw wj => do
          let d ← idx ds wj.2
          set2 sw wj.1 i ((d : Int) : ZMod p)) sw = .ok sw' ∧ Shape n N sw' ∧
        (∀ j < ws.length, cell sw' (ws.getD j 0) i = ((ds.getD (k + j) 0 : Int) : ZMod p)) ∧
        (∀ b j, (j ≠ i ∨ b ∉ ws) → cell sw' b j = cell sw b j) := by
  intro ws
  induction ws with
  | nil => intro k sw hs _ _ _; exact ⟨sw, rfl, hs, by simp, by simp⟩
  | cons w ws ih =>
    intro k sw hs hnd hlt hlen
    rw [List.length_cons] at hlen
    obtain ⟨s1, a1, a2, a3⟩ := set2_spec hs (hlt w (by simp)) hi ((ds.getD k 0 : Int) : ZMod p)
    obtain ⟨s2, b1, b2, b3, b4⟩ := ih (k + 1) s1 a2 (List.nodup_cons.mp hnd).2
      (fun v hv => hlt v (by simp [hv])) (by omega)
    refine ⟨s2, ?_, b2, ?_, ?_⟩
    · rw [List.zipIdx_cons, List.foldlM_cons]
      have : idx ds k = .ok (ds.getD k 0) := by
        rw [idx_ok (by omega), List.getD_eq_getElem?_getD, List.getElem?_eq_getElem (by omega)]; rfl
      simp only [this, go_bind_ok]
      rw [a1, go_bind_ok, b1]
    · intro j hj
      cases j with
      | zero =>
        rw [List.getD_cons_zero, b4 w i (Or.inr (List.nodup_cons.mp hnd).1), a3]
        simp
      | succ j =>
        rw [List.getD_cons_succ, b3 j (by simpa using hj)]
        rw [show k + 1 + j = k + (j + 1) by omega]
    · intro b j hb
      rw [b4 b j (by rcases hb with h | h; exact Or.inl h; exact Or.inr (by simp at h; tauto)), a3,
        if_neg]
      rintro ⟨rfl, rfl⟩
      rcases hb with h | h
      · exact h rfl
      · simp at h

/-- What an entry of the infinity-norm map looks like. -/
structure InfOK (n : Nat) (e : InfEntry) : Prop where
  bound : 2 ≤ e.bound
  id : e.id < n
  lt : ∀ w ∈ e.dcmp, w < n
  nodup : e.dcmp.Nodup
  len : ∀ base, decomposeBase e.bound = .ok base → e.dcmp.length = base.length

theorem entry_spec {n N : Nat} {e : InfEntry} (he : InfOK n e) (hid : e.id ∉ e.dcmp)
    {base : List Nat} (hb : decomposeBase e.bound = .ok base) (sw : List (List (ZMod p)))
    (hs : Shape n N sw) :
    ∃ sw', forRange 0 N 1 sw (fun sw i => do
        let x ← idx2 sw e.id i
        let dcmp := decomposeBig x.val base p
        e.dcmp.zipIdx.foldlM (fun sw wj => do
          let d ← idx dcmp wj.2
          set2 sw wj.1 i ((d : Int) : ZMod p)) sw) = .ok sw' ∧ Shape n N sw' ∧
      (∀ j < base.length, ∀ i < N, cell sw' (e.dcmp.getD j 0) i =
        (((decomposeBig (cell sw e.id i).val base p).getD j 0 : Int) : ZMod p)) ∧
      (∀ b ∉ e.dcmp, ∀ j, cell sw' b j = cell sw b j) := by
  have hlen := he.len base hb
  obtain ⟨sw', c1, c2, c3, c4, -⟩ := forRange_spec
    (f := fun (sw : List (List (ZMod p))) i => do
        let x ← idx2 sw e.id i
        let dcmp := decomposeBig x.val base p
        e.dcmp.zipIdx.foldlM (fun sw wj => do
          let d ← idx dcmp wj.2
          set2 sw wj.1 i ((d : Int) : ZMod p)) sw) 0 N (Nat.zero_le _)
    (fun k s => Shape n N s ∧
      (∀ j < base.length, ∀ i < k, cell s (e.dcmp.getD j 0) i =
        (((decomposeBig (cell sw e.id i).val base p).getD j 0 : Int) : ZMod p)) ∧
      (∀ b ∉ e.dcmp, ∀ j, cell s b j = cell sw b j) ∧ True)
    sw ⟨hs, by simp, by simp, trivial⟩ (by
      rintro i s _ hi ⟨s1, s2, s3, -⟩
      have hx : cell s e.id i = cell sw e.id i := s3 _ hid i
      obtain ⟨s', d1, d2, d3, d4⟩ := digits_write (p := p) (n := n) i hi
        (decomposeBig (cell sw e.id i).val base p) e.dcmp 0 s s1 he.nodup he.lt
        (by rw [show (decomposeBig (cell sw e.id i).val base p).length = base.length from
          greedy_length _ _]; omega)
      refine ⟨s', ?_, d2, ?_, ?_, trivial⟩
      · simp only [idx2_cell s1 he.id hi, go_bind_ok, hx]
        exact d1
      · intro j hj i' hi'
        by_cases hii : i' = i
        · subst hii
          rw [d3 j (by omega), Nat.zero_add]
        · rw [d4 _ _ (Or.inl hii), s2 j hj i' (by omega)]
      · intro b hb' j
        rw [d4 b j (Or.inr hb'), s3 b hb' j])
  exact ⟨sw', c1, c2, c3, c4⟩

/-- The entries of the infinity-norm map do not get into each other's way. -/
structure InfOrder (n : Nat) (order : List InfEntry) : Prop where
  ok : ∀ e ∈ order, InfOK n e
  sep : ∀ e ∈ order, ∀ e' ∈ order, e.id ∉ e'.dcmp
  disj : order.Pairwise (fun e e' => ∀ w ∈ e.dcmp, w ∉ e'.dcmp)

theorem fillInf_spec {n N : Nat} (order : List InfEntry) (ho : InfOrder n order)
    (sw : List (List (ZMod p))) (hs : Shape n N sw) :
    ∃ sw', fillInf N order sw = .ok sw' ∧ Shape n N sw' ∧
      (∀ e ∈ order, ∀ base, decomposeBase e.bound = .ok base →
        ∀ j < base.length, ∀ i < N, cell sw' (e.dcmp.getD j 0) i =
          (((decomposeBig (cell sw e.id i).val base p).getD j 0 : Int) : ZMod p)) ∧
      (∀ b, (∀ e ∈ order, b ∉ e.dcmp) → ∀ j, cell sw' b j = cell sw b j) := by
  induction order generalizing sw with
  | nil => exact ⟨sw, rfl, hs, by simp, by simp⟩
  | cons e order ih =>
    have he := ho.ok e (by simp)
    obtain ⟨base, hb, -⟩ := decomposeBase_spec e.bound he.bound
    have hid : e.id ∉ e.dcmp := ho.sep e (by simp) e (by simp)
    obtain ⟨s1, a1, a2, a3, a4⟩ := entry_spec he hid hb sw hs
    obtain ⟨hd1, hd2⟩ := List.pairwise_cons.mp ho.disj
    obtain ⟨s2, b1, b2, b3, b4⟩ := ih ⟨fun e he => ho.ok e (by simp [he]),
      fun e he e' he' => ho.sep e (by simp [he]) e' (by simp [he']), hd2⟩ s1 a2
    refine ⟨s2, ?_, b2, ?_, ?_⟩
    · unfold fillInf at b1 ⊢
      rw [List.foldlM_cons, hb]
      simp only [go_bind_ok]
      rw [a1, go_bind_ok]; exact b1
    · intro e' he' base' hb' j hj i hi
      rcases List.mem_cons.mp he' with rfl | he'
      · rw [hb] at hb'; cases hb'
        rw [b4 _ _ i, a3 j hj i hi]
        intro e'' he''
        have hl := he.len base hb
        have hm : e'.dcmp.getD j 0 ∈ e'.dcmp := by
          rw [List.getD_eq_getElem?_getD, List.getElem?_eq_getElem (by omega)]
          exact List.getElem_mem _
        exact hd1 e'' he'' _ hm
      · rw [b3 e' he' base' hb' j hj i hi, a4 e'.id (ho.sep e' (by simp [he']) e (by simp))]
    · intro b hb' j
      rw [b4 b (fun e he => hb' e (by simp [he])) j, a4 b (hb' e (by simp)) j]

/-! ## Two norm -/

theorem fillTwoPub_spec {m N : Nat} (e : TwoEntry) (h1 : e.base < m) (h2 : e.mask < m)
    (hne : e.base ≠ e.mask) {base : List Nat} (hb : decomposeBase e.bound = .ok base)
    (hN : base.length ≤ N) (pw : List (List (ZMod p))) (hs : Shape m N pw) :
    ∃ pw', fillTwoPub e pw = .ok pw' ∧ Shape m N pw' ∧
      (∀ i, cell pw' e.base i = if i < base.length then ((base.getD i 0 : Nat) : ZMod p)
        else cell pw e.base i) ∧
      (∀ i, cell pw' e.mask i = if i < base.length then 1 else cell pw e.mask i) ∧
      (∀ b, b ≠ e.base → b ≠ e.mask → ∀ i, cell pw' b i = cell pw b i) := by
  unfold fillTwoPub
  rw [hb, go_bind_ok]
  obtain ⟨pw', c1, c2, c3, c4, c5⟩ := forRange_spec
    (f := fun (pw : List (List (ZMod p))) i => do
      let b ← idx base i
      let pw ← set2 pw e.base i ((b : Nat) : ZMod p)
      set2 pw e.mask i 1) 0 base.length (Nat.zero_le _)
    (fun k s => Shape m N s ∧
      (∀ i, cell s e.base i = if i < k then ((base.getD i 0 : Nat) : ZMod p)
        else cell pw e.base i) ∧
      (∀ i, cell s e.mask i = if i < k then 1 else cell pw e.mask i) ∧
      (∀ b, b ≠ e.base → b ≠ e.mask → ∀ i, cell s b i = cell pw b i))
    pw ⟨hs, by simp, by simp, by simp⟩ (by
      rintro i s _ hi ⟨s1, s2, s3, s4⟩
      obtain ⟨t, t1, t2, t3⟩ := set2_spec s1 h1 (by omega : i < N) ((base.getD i 0 : Nat) : ZMod p)
      obtain ⟨u, u1, u2, u3⟩ := set2_spec t2 h2 (by omega : i < N) (1 : ZMod p)
      refine ⟨u, ?_, u2, ?_, ?_, ?_⟩
      · have : idx base i = .ok (base.getD i 0) := by
          rw [idx_ok hi, List.getD_eq_getElem?_getD, List.getElem?_eq_getElem hi]; rfl
        simp only [this, go_bind_ok, t1, u1]
      · intro j
        rw [u3, if_neg (by tauto), t3, s2]
        by_cases hj : j = i
        · subst hj; simp
        · rw [if_neg (by tauto)]
          by_cases hji : j < i
          · rw [if_pos hji, if_pos (by omega)]
          · rw [if_neg hji, if_neg (by omega)]
      · intro j
        rw [u3]
        by_cases hj : j = i
        · subst hj; simp
        · rw [if_neg (by tauto), t3, if_neg (by tauto), s3]
          by_cases hji : j < i
          · rw [if_pos hji, if_pos (by omega)]
          · rw [if_neg hji, if_neg (by omega)]
      · intro b hb1 hb2 j
        rw [u3, if_neg (by tauto), t3, if_neg (by tauto), s4 b hb1 hb2])
  exact ⟨pw', c1, c2, c3, c4, c5⟩

/-- The squared norm as the prover computes it: the sum of the squared representatives. -/
def sqNorm (N : Nat) (sw : List (List (ZMod p))) (w : Nat) : Nat :=
  ∑ i ∈ range N, (cell sw w i).val * (cell sw w i).val

theorem fillTwo_single {m n N : Nat} (e : TwoEntry) (h1 : e.base < m) (h2 : e.mask < m)
    (hne : e.base ≠ e.mask) (h3 : e.id < n) (h4 : e.dcmp < n) {base : List Nat}
    (hb : decomposeBase e.bound = .ok base)
    (hN : base.length ≤ N) (pw sw : List (List (ZMod p))) (hp : Shape m N pw) (hs : Shape n N sw) :
    ∃ pw' sw', fillTwo N [e] (pw, sw) = .ok (pw', sw') ∧ fillTwoPub e pw = .ok pw' ∧ Shape m N pw' ∧
      Shape n N sw' ∧
      (∀ i, cell sw' e.dcmp i = if i < base.length then
        (((decomposeBig (sqNorm N sw e.id % p) base p).getD i 0 : Int) : ZMod p)
        else cell sw e.dcmp i) ∧
      (∀ b, b ≠ e.dcmp → ∀ i, cell sw' b i = cell sw b i) := by
  obtain ⟨pw', p1, p2, -⟩ := fillTwoPub_spec e h1 h2 hne hb hN pw hp
  have hsq : forRange 0 N 1 0 (fun sqNm i => do
      let x ← idx2 sw e.id i
      pure (sqNm + x.val * x.val)) = .ok (sqNorm N sw e.id) := by
    obtain ⟨s, a1, a2⟩ := forRange_spec (f := fun (sqNm : Nat) i => do
      let x ← idx2 sw e.id i
      pure (sqNm + x.val * x.val)) 0 N (Nat.zero_le _)
      (fun k s => s = ∑ i ∈ range k, (cell sw e.id i).val * (cell sw e.id i).val) 0 (by simp) (by
        rintro i s _ hi rfl
        refine ⟨_, by rw [idx2_cell hs h3 hi, go_bind_ok]; rfl, ?_⟩
        rw [sum_range_succ])
    rw [a1, a2]; rfl
  set ds := decomposeBig (sqNorm N sw e.id % p) base p with hds
  have hdl : ds.length = base.length := greedy_length _ _
  obtain ⟨sw', c1, c2, c3, c4⟩ := forRange_spec
    (f := fun (sw : List (List (ZMod p))) i => do
      let d ← idx ds i
      set2 sw e.dcmp i ((d : Int) : ZMod p)) 0 ds.length (Nat.zero_le _)
    (fun k s => Shape n N s ∧
      (∀ i, cell s e.dcmp i = if i < k then ((ds.getD i 0 : Int) : ZMod p) else cell sw e.dcmp i) ∧
      (∀ b, b ≠ e.dcmp → ∀ i, cell s b i = cell sw b i))
    sw ⟨hs, by simp, by simp⟩ (by
      rintro i s _ hi ⟨s1, s2, s3⟩
      obtain ⟨t, t1, t2, t3⟩ := set2_spec s1 h4 (by omega : i < N) ((ds.getD i 0 : Int) : ZMod p)
      refine ⟨t, ?_, t2, ?_, ?_⟩
      · have : idx ds i = .ok (ds.getD i 0) := by
          rw [idx_ok hi, List.getD_eq_getElem?_getD, List.getElem?_eq_getElem hi]; rfl
        simp only [this, go_bind_ok, t1]
      · intro j
        rw [t3]
        by_cases hj : j = i
        · subst hj; simp
        · rw [if_neg (by tauto), s2]
          by_cases hji : j < i
          · rw [if_pos hji, if_pos (by omega)]
          · rw [if_neg hji, if_neg (by omega)]
      · intro b hb1 j
        rw [t3, if_neg (by tauto), s3 b hb1])
  refine ⟨pw', sw', ?_, p1, p2, c2, ?_, c4⟩
  · unfold fillTwo
    simp only [List.foldlM_cons, List.foldlM_nil, hb, p1, go_bind_ok, hsq]
    rw [← hds, c1]
    rfl
  · rw [← hdl]; exact c3

end

end Ringo
