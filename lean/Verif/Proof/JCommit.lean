import Verif.Spec.Jindo

/-!
# `Commit`
-/

namespace Ringo

open Finset

set_option linter.unusedSectionVars false

theorem mapM_range_spec {β : Type} (n : Nat) (f : Nat → Go β) (Q : Nat → β → Prop) (d : β)
    (h : ∀ i < n, ∃ b, f i = .ok b ∧ Q i b) :
    ∃ r, (List.range n).mapM f = .ok r ∧ r.length = n ∧ ∀ i < n, Q i (r.getD i d) := by
  obtain ⟨r, h1, h2⟩ := mapM_spec f Q (List.range n) (fun a ha => h a (List.mem_range.mp ha))
  obtain ⟨h3, h4⟩ := forall₂_range h2
  refine ⟨r, h1, h3, ?_⟩
  intro i hi
  have := h4 i (by omega)
  rwa [List.getD_eq_getElem _ _ (by omega)]

theorem getD_mem {α : Type} {l : List α} {i : Nat} (h : i < l.length) (d : α) : l.getD i d ∈ l := by
  rw [List.getD_eq_getElem _ _ h]; exact List.getElem_mem h

theorem toR_zero (qs : List Nat) (N n : Nat) : toR qs N (List.replicate n 0) = 0 := by
  unfold toR
  have : listPoly ((List.replicate n (0 : Int)).map fun c : Int => (c : ZMod qs.prod)) = 0 := by
    ext i
    rw [listPoly_coeff]
    simp [List.getD_eq_getElem?_getD, List.getElem?_replicate]
    split <;> simp
  rw [this, map_zero]

theorem decoded_zero (p : Nat) (P : EncParams) (n s : Nat) :
    (decoded p P (List.replicate n 0)).getD s 0 = 0 := by
  unfold decoded
  rw [List.getD_eq_getElem?_getD, List.getElem?_map]
  cases (List.range P.slots)[s]? with
  | none => rfl
  | some i =>
    simp only [Option.map_some, Option.getD_some]
    apply sum_eq_zero
    intro j _
    rw [List.getD_eq_getElem?_getD, List.getElem?_replicate]
    split <;> simp

namespace JEnv

variable {p : Nat} {T T' : Type} [AddCommGroup T] [AddCommGroup T'] {E : JEnv p T T'}

theorem Good.inn_at (h : E.Good) {k l : Nat} (hk : k < E.par.inRank) (hl : l < E.par.mat.rows) :
    idxIdx E.key.inn k l = .ok (at2 E.key.inn k l) :=
  idxIdx_getD (by rw [h.inn]; exact hk)
    (by rw [h.inn2 _ (getD_mem (by rw [h.inn]; exact hk) _)]; exact hl) 0

theorem Good.mlwe_at (h : E.Good) {k l : Nat} (hk : k < E.par.inRank) (hl : l < E.par.mlweRank) :
    idxIdx E.key.mlwe k l = .ok (at2 E.key.mlwe k l) :=
  idxIdx_getD (by rw [h.mlwe]; exact hk)
    (by rw [h.mlwe2 _ (getD_mem (by rw [h.mlwe]; exact hk) _)]; exact hl) 0

theorem Good.out_at (h : E.Good) {k l : Nat} (hk : k < E.par.outRank) (hl : l < E.par.dcmpLen) :
    idxIdx E.key.out k l = .ok (at2 E.key.out k l) :=
  idxIdx_getD (by rw [h.out]; exact hk)
    (by rw [h.out2 _ (getD_mem (by rw [h.out]; exact hk) _)]; exact hl) 0

/-- What a cell holds: nothing, or the randomised encoding of a vector. -/
def CellIs (E : JEnv p T T') (r : ColRand p) (k : Nat) (e : List Int) : Prop :=
  e = List.replicate E.par.enc.N 0 ∨
    ∃ u : List (ZMod p), u.length ≤ E.par.enc.slots ∧
      e = cellInt E.par.enc u ((List.range E.par.enc.N).map (r.cell k))

/-- The element of slot `s` in row `k` of column `j`; column `cols` is the one of the masks, whose
rows are left zero if they start after the end of `v`. -/
def colEntry {F : Type} [CommRing F] (M : MatParams) (row : Nat → F) (mask : Nat → Nat → F)
    (v : List F) (j k s : Nat) : F :=
  if j = M.cols then
    if k ≠ 0 ∧ k ≠ M.rows - 1 ∧ v.length < k * M.cols * M.slots then 0 else mask k s
  else matEntry M row v k (j * M.slots + s)

theorem encodeCol_spec (h : E.Good) (A : E.ringQ.Lawful) (v : List (ZMod p)) (hv : v ≠ [])
    (row : Nat → ZMod p) (fl : List (ZMod p) × List (ZMod p))
    (hfl : genFirstLastRow E.par.mat row v = .ok fl) (r : ColRand p) (j : Nat)
    (hj : j ≤ E.par.mat.cols) :
    ∃ enc, E.encodeCol v fl.1 fl.2 r j = .ok enc ∧ enc.length = E.par.mat.rows ∧
      ∀ k < E.par.mat.rows, ∃ e : List Int, e.length = E.par.enc.N ∧
        A.val (enc.getD k 0) = toR E.ringQ.qs E.ringQ.N e ∧ CellIs E r k e ∧
        ∀ s < E.par.mat.slots, (decoded p E.par.enc e).getD s 0 = colEntry E.par.mat row r.mask v j k s := by
  rw [genRows_spec h.mat row v hv] at hfl
  have hfl := (Except.ok.inj hfl).symm
  subst hfl
  unfold encodeCol
  refine mapM_range_spec _ _ (fun k a => ∃ e : List Int, e.length = E.par.enc.N ∧
        A.val a = toR E.ringQ.qs E.ringQ.N e ∧ CellIs E r k e ∧
        ∀ s < E.par.mat.slots, (decoded p E.par.enc e).getD s 0 = colEntry E.par.mat row r.mask v j k s)
    0 ?_
  intro k hk
  -- the cell, whichever column it is in
  have hcell : ∃ c : Option (List (ZMod p)),
      E.colArg v ((List.range (E.par.mat.cols * E.par.mat.slots)).map (fun k => v.getD k 0 -
        (if k = 0 then 0 else lastAt (E.par.mat.cols * E.par.mat.slots) row (k - 1))))
       ((List.range (E.par.mat.cols * E.par.mat.slots)).map (lastAt (E.par.mat.cols * E.par.mat.slots) row))
        r j k = Except.ok c ∧
      (∀ l, c = some l → l.length ≤ E.par.enc.slots) ∧
      ∀ s < E.par.mat.slots, (c.getD []).getD s 0 = colEntry E.par.mat row r.mask v j k s := by
    by_cases hjc : j = E.par.mat.cols
    · refine ⟨E.maskArg v r.mask k, by unfold colArg; rw [if_pos hjc]; rfl, ?_, ?_⟩
      swap
      · intro s hs
        have hu : ((List.range E.par.mat.slots).map (r.mask k)).getD s 0 = r.mask k s :=
          getD_map_range _ _ _ _ hs
        unfold colEntry maskArg
        rw [if_pos hjc]
        dsimp only
        by_cases hk0 : k = 0
        · rw [if_pos hk0, if_neg (fun h' => h'.1 hk0), Option.getD_some, hu]
        rw [if_neg hk0]
        by_cases hk1 : k = E.par.mat.rows - 1
        · rw [if_pos hk1, if_neg (fun h' => h'.2.1 hk1), Option.getD_some, hu]
        rw [if_neg hk1]
        by_cases hk2 : k * E.par.mat.cols * E.par.mat.slots > v.length
        · rw [if_pos hk2, if_pos ⟨hk0, hk1, hk2⟩]; rfl
        · rw [if_neg hk2, if_neg (fun h' => hk2 h'.2.2), Option.getD_some, hu]
      intro l hl
      have : l = (List.range E.par.mat.slots).map (r.mask k) := by
        unfold maskArg at hl
        dsimp only at hl
        split at hl
        · exact (Option.some.inj hl).symm
        · split at hl
          · exact (Option.some.inj hl).symm
          · split at hl
            · cases hl
            · exact (Option.some.inj hl).symm
      rw [this, ← h.slots]; simp
    · obtain ⟨c, h1, h2, h3⟩ := cellArg_spec (M := E.par.mat) row v j k (by omega)
      exact ⟨c, by unfold colArg; rw [if_neg hjc]; exact h1, fun l hl => by rw [← h.slots]; exact h2 l hl,
        fun s hs => by unfold colEntry; rw [if_neg hjc]; exact h3 s hs⟩
  obtain ⟨c, h1, h2, h3⟩ := hcell
  dsimp only
  rw [h1, go_bind_ok]
  cases c with
  | none =>
    refine ⟨0, rfl, List.replicate E.par.enc.N 0, by simp, by rw [toR_zero, map_zero], .inl rfl, ?_⟩
    intro s hs
    rw [decoded_zero, ← h3 s hs]
    simp
  | some u =>
    have hu := h2 u rfl
    obtain ⟨t, h4, h5⟩ := randPoly_spec A h.enc h.deg u hu ((List.range E.ringQ.N).map (r.cell k))
    refine ⟨t, h4, _, cellInt_length _ _ _, h5, .inr ⟨u, hu, by rw [h.deg]⟩, ?_⟩
    intro s hs
    rw [decoded_cellInt h.enc u hu _ (by simp [h.deg]), ← h3 s hs, Option.getD_some]
    by_cases hsu : s < u.length
    · rw [List.getD_append _ _ _ _ hsu]
    · rw [List.getD_append_right _ _ _ _ (by omega), List.getD_eq_default u _ (by omega),
        List.getD_eq_getElem?_getD, List.getElem?_replicate]
      split <;> rfl

theorem innerCom_spec (h : E.Good) (A : E.ringQ.Lawful) (enc mlwe : List T) (k : Nat)
    (hk : k < E.par.inRank) (he : enc.length = E.par.mat.rows)
    (hm : mlwe.length = E.par.mlweRank + E.par.inRank) :
    ∃ c, E.innerCom enc mlwe k = .ok c ∧ A.val c =
      ∑ l ∈ range E.par.mat.rows, A.val (at2 E.key.inn k l) * A.val (enc.getD l 0) +
      ∑ l ∈ range E.par.mlweRank, A.val (at2 E.key.mlwe k l) * A.val (mlwe.getD l 0) +
      A.val (mlwe.getD (E.par.mlweRank + k) 0) := by
  unfold innerCom
  rw [accLoop_ok _ _ _ (fun l => E.ringQ.mul (at2 E.key.inn k l) (enc.getD l 0)) (by
      intro l hl
      rw [h.inn_at hk hl, go_bind_ok, idx_getD (by omega) 0, go_bind_ok, go_pure]), go_bind_ok,
    accLoop_ok _ _ _ (fun l => E.ringQ.mul (at2 E.key.mlwe k l) (mlwe.getD l 0)) (by
      intro l hl
      rw [h.mlwe_at hk hl, go_bind_ok, idx_getD (by omega) 0, go_bind_ok, go_pure]), go_bind_ok,
    idx_getD (by omega) 0, go_bind_ok, go_pure]
  refine ⟨_, rfl, ?_⟩
  simp only [map_add, map_sum, A.val_mul, zero_add]
  ring

theorem outerCommit_spec (h : E.Good) (A' : E.ringQ'.Lawful) (ts : List T')
    (hl : ts.length = E.par.dcmpLen) :
    ∃ com, E.outerCommit ts = .ok com ∧ com.length = E.par.outRank ∧
      ∀ k < E.par.outRank, ∃ σ : List Int, σ.length = E.par.enc.N ∧
        (∀ r ∈ σ, 0 ≤ r ∧ r < 2 ^ E.par.outCut) ∧
        ∑ l ∈ range E.par.dcmpLen, A'.val (at2 E.key.out k l) * A'.val (ts.getD l 0) =
          2 ^ E.par.outCut * A'.val (com.getD k 0) + toR E.ringQ'.qs E.ringQ'.N σ := by
  unfold outerCommit
  refine mapM_range_spec _ _ (fun k c => ∃ σ : List Int, σ.length = E.par.enc.N ∧
        (∀ r ∈ σ, 0 ≤ r ∧ r < 2 ^ E.par.outCut) ∧
        ∑ l ∈ range E.par.dcmpLen, A'.val (at2 E.key.out k l) * A'.val (ts.getD l 0) =
          2 ^ E.par.outCut * A'.val c + toR E.ringQ'.qs E.ringQ'.N σ) 0 ?_
  intro k hk
  rw [accLoop_ok _ _ _ (fun l => E.ringQ'.mul (at2 E.key.out k l) (ts.getD l 0)) (by
      intro l hl'
      rw [h.out_at hk hl', go_bind_ok, idx_getD (by omega) 0, go_bind_ok, go_pure]), go_bind_ok]
  obtain ⟨t', h1, t, ρ, h2, h3, h4, h5, h6, -⟩ := truncate_spec A' A' rfl E.par.outCut
    (0 + ∑ l ∈ range E.par.dcmpLen, E.ringQ'.mul (at2 E.key.out k l) (ts.getD l 0))
  refine ⟨t', h1, ρ, by rw [h3, h.deg'], h6, ?_⟩
  rw [h4, ← h5]
  simp only [zero_add, map_sum, A'.val_mul]

/-- One column of a commitment. -/
theorem commitCol_spec (h : E.Good) (A : E.ringQ.Lawful) (A' : E.ringQ'.Lawful) (v : List (ZMod p))
    (hv : v ≠ []) (row : Nat → ZMod p) (fl : List (ZMod p) × List (ZMod p))
    (hfl : genFirstLastRow E.par.mat row v = .ok fl) (r : ColRand p) (j : Nat)
    (hj : j ≤ E.par.mat.cols) :
    ∃ c, E.commitCol v fl.1 fl.2 r j = .ok c ∧
      (c.1.length = E.par.mat.rows ∧
        ∀ k < E.par.mat.rows, ∃ e : List Int, e.length = E.par.enc.N ∧
        A.val (c.1.getD k 0) = toR E.ringQ.qs E.ringQ.N e ∧ CellIs E r k e ∧
        ∀ s < E.par.mat.slots, (decoded p E.par.enc e).getD s 0 = colEntry E.par.mat row r.mask v j k s) ∧
      (c.2.1.length = E.par.mlweRank + E.par.inRank ∧
        ∀ k < E.par.mlweRank + E.par.inRank, A.val (c.2.1.getD k 0) =
          toR E.ringQ.qs E.ringQ.N ((List.range E.par.enc.N).map (r.mlwe k))) ∧
      c.2.2.length = E.par.inRank ∧
        ∀ k < E.par.inRank, ∃ t ρ : List Int, t.length = E.par.enc.N ∧ ρ.length = E.par.enc.N ∧
          A'.val (c.2.2.getD k 0) = toR E.ringQ'.qs E.ringQ'.N t ∧
          ∑ l ∈ range E.par.mat.rows, A.val (at2 E.key.inn k l) * A.val (c.1.getD l 0) +
          ∑ l ∈ range E.par.mlweRank, A.val (at2 E.key.mlwe k l) * A.val (c.2.1.getD l 0) +
          A.val (c.2.1.getD (E.par.mlweRank + k) 0) =
            2 ^ E.par.inCut * toR E.ringQ.qs E.ringQ.N t + toR E.ringQ.qs E.ringQ.N ρ ∧
          (∀ r ∈ ρ, 0 ≤ r ∧ r < 2 ^ E.par.inCut) ∧ ∀ c ∈ t,
            2 ^ (E.par.inCut + 1) * |c| ≤ E.ringQ.qs.prod + 1 + 2 ^ (E.par.inCut + 1) := by
  obtain ⟨enc, h1, h2, h3⟩ := encodeCol_spec h A v hv row fl hfl r j hj
  have hm : (E.mlweCol r).length = E.par.mlweRank + E.par.inRank := by
    simp [mlweCol, Nat.add_comm]
  have hcom : ∃ com, (List.range E.par.inRank).mapM (fun j => do
      let c ← E.innerCom enc (E.mlweCol r) j
      truncate E.ringQ E.ringQ' E.par.inCut c) = Except.ok com ∧ com.length = E.par.inRank ∧
      ∀ k < E.par.inRank, ∃ t ρ : List Int, t.length = E.par.enc.N ∧ ρ.length = E.par.enc.N ∧
          A'.val (com.getD k 0) = toR E.ringQ'.qs E.ringQ'.N t ∧
          ∑ l ∈ range E.par.mat.rows, A.val (at2 E.key.inn k l) * A.val (enc.getD l 0) +
          ∑ l ∈ range E.par.mlweRank, A.val (at2 E.key.mlwe k l) * A.val ((E.mlweCol r).getD l 0) +
          A.val ((E.mlweCol r).getD (E.par.mlweRank + k) 0) =
            2 ^ E.par.inCut * toR E.ringQ.qs E.ringQ.N t + toR E.ringQ.qs E.ringQ.N ρ ∧
          (∀ r ∈ ρ, 0 ≤ r ∧ r < 2 ^ E.par.inCut) ∧ ∀ c ∈ t,
            2 ^ (E.par.inCut + 1) * |c| ≤ E.ringQ.qs.prod + 1 + 2 ^ (E.par.inCut + 1) := by
    refine mapM_range_spec _ _ (fun k c => ∃ t ρ : List Int, t.length = E.par.enc.N ∧
          ρ.length = E.par.enc.N ∧
          A'.val c = toR E.ringQ'.qs E.ringQ'.N t ∧
          ∑ l ∈ range E.par.mat.rows, A.val (at2 E.key.inn k l) * A.val (enc.getD l 0) +
          ∑ l ∈ range E.par.mlweRank, A.val (at2 E.key.mlwe k l) * A.val ((E.mlweCol r).getD l 0) +
          A.val ((E.mlweCol r).getD (E.par.mlweRank + k) 0) =
            2 ^ E.par.inCut * toR E.ringQ.qs E.ringQ.N t + toR E.ringQ.qs E.ringQ.N ρ ∧
          (∀ r ∈ ρ, 0 ≤ r ∧ r < 2 ^ E.par.inCut) ∧ ∀ c ∈ t,
            2 ^ (E.par.inCut + 1) * |c| ≤ E.ringQ.qs.prod + 1 + 2 ^ (E.par.inCut + 1)) 0 ?_
    intro k hk
    obtain ⟨c, h4, h5⟩ := innerCom_spec h A enc (E.mlweCol r) k hk h2 hm
    obtain ⟨t', h6, t, ρ, h7, h8, h9, h10, h11, h12⟩ := truncate_spec A A' (by rw [h.deg, h.deg'])
      E.par.inCut c
    rw [h4, go_bind_ok]
    exact ⟨t', h6, t, ρ, by rw [h7, h.deg], by rw [h8, h.deg], h9, by rw [← h5, h10], h11, h12⟩
  obtain ⟨com, h4, h5, h6⟩ := hcom
  refine ⟨(enc, E.mlweCol r, com), ?_, ⟨h2, h3⟩, ⟨hm, ?_⟩, h5, h6⟩
  · unfold commitCol
    rw [h1, go_bind_ok]
    dsimp only
    rw [h4, go_bind_ok]
    rfl
  · intro k hk
    unfold mlweCol
    rw [getD_map_range _ _ _ _ (by omega), mlwePoly_spec A, h.deg]

theorem flatMap_getD {α β : Type} (f : α → List β) (n : Nat) (d : β) (a0 : α) (l : List α)
    (hl : ∀ a ∈ l, (f a).length = n) (i k : Nat) (hi : i < l.length) (hk : k < n) :
    (l.flatMap f).getD (i * n + k) d = (f (l.getD i a0)).getD k d := by
  induction l generalizing i with
  | nil => exact absurd hi (by simp)
  | cons a l ih =>
    rw [List.flatMap_cons]
    have ha := hl a (by simp)
    cases i with
    | zero => rw [Nat.zero_mul, Nat.zero_add, List.getD_append _ _ _ _ (by omega)]; rfl
    | succ i =>
      rw [List.getD_append_right _ _ _ _ (by rw [ha, Nat.succ_mul]; omega), ha,
        show (i + 1) * n + k - n = i * n + k by rw [Nat.succ_mul]; omega,
        ih (fun b hb => hl b (by simp [hb])) i (by simpa using hi)]
      rfl

theorem flatMap_len {α β : Type} (f : α → List β) (n : Nat) (l : List α)
    (hl : ∀ a ∈ l, (f a).length = n) : (l.flatMap f).length = l.length * n := by
  induction l with
  | nil => simp
  | cons a l ih =>
    rw [List.flatMap_cons, List.length_append, hl a (by simp), ih (fun b hb => hl b (by simp [hb])),
      List.length_cons, Nat.succ_mul, Nat.add_comm]

theorem commit_spec (h : E.Good) (A : E.ringQ.Lawful) (A' : E.ringQ'.Lawful) (v : List (ZMod p))
    (hv : v ≠ []) (hr : v.length ≤ E.par.mat.rank) (r : ComRand p) :
    ∃ com o, E.commit v r = .ok (com, o) ∧ ∃ I : JInts, E.Opens A A' v com o I ∧
      (∀ j ≤ E.par.mat.cols, ∀ k < E.par.mat.rows, CellIs E (r.col j) k (I.e j k)) ∧
      (∀ j ≤ E.par.mat.cols, ∀ k < E.par.mlweRank + E.par.inRank,
        I.m j k = (List.range E.par.enc.N).map ((r.col j).mlwe k)) ∧
      ∀ j ≤ E.par.mat.cols, ∀ k < E.par.mat.rows, ∀ s < E.par.mat.slots,
        (decoded p E.par.enc (I.e j k)).getD s 0 =
          colEntry E.par.mat r.row (r.col j).mask v j k s := by
  have hfl := genRows_spec h.mat r.row v hv
  obtain ⟨fl, hfl⟩ : ∃ fl, genFirstLastRow E.par.mat r.row v = .ok fl := ⟨_, hfl⟩
  obtain ⟨cols, h1, h2, h3⟩ := mapM_range_spec (E.par.mat.cols + 1)
    (fun i => E.commitCol v fl.1 fl.2 (r.col i) i) _ ([], [], [])
    (fun j hj => commitCol_spec h A A' v hv r.row fl hfl (r.col j) j (by omega))
  have hcl : ∀ c ∈ cols, c.1.length = E.par.mat.rows ∧
      c.2.1.length = E.par.mlweRank + E.par.inRank ∧ c.2.2.length = E.par.inRank := by
    intro c hc
    obtain ⟨i, hi, rfl⟩ := List.mem_iff_getElem.mp hc
    have := h3 i (by omega)
    rw [List.getD_eq_getElem _ _ hi] at this
    exact ⟨this.1.1, this.2.1.1, this.2.2.1⟩
  have hlen : (cols.flatMap fun c => c.2.2).length = E.par.dcmpLen := by
    rw [flatMap_len _ E.par.inRank cols (fun c hc => (hcl c hc).2.2), h2, h.dcmp]
  obtain ⟨com, h4, h5, h6⟩ := outerCommit_spec h A' _ hlen
  have h3a := fun j (hj : j < E.par.mat.cols + 1) => (h3 j hj).1.2
  have h3c := fun j (hj : j < E.par.mat.cols + 1) => (h3 j hj).2.2.2
  choose! e he1 he2 he3 he4 using h3a
  choose! t ρ ht1 ht2 ht3 ht4 ht5 ht6 using h3c
  choose! σ hσ1 hσ2 hσ3 using h6
  have henc : ∀ j ≤ E.par.mat.cols, ∀ k, at2 (cols.map fun c => c.1) j k =
      (cols.getD j ([], [], [])).1.getD k 0 := by
    intro j hj k
    unfold at2
    congr 1
    rw [List.getD_eq_getElem _ _ (by simp; omega), List.getD_eq_getElem _ _ (by omega),
      List.getElem_map]
  have hmlwe : ∀ j ≤ E.par.mat.cols, ∀ k, at2 (cols.map fun c => c.2.1) j k =
      (cols.getD j ([], [], [])).2.1.getD k 0 := by
    intro j hj k
    unfold at2
    congr 1
    rw [List.getD_eq_getElem _ _ (by simp; omega), List.getD_eq_getElem _ _ (by omega),
      List.getElem_map]
  refine ⟨com, ⟨cols.flatMap fun c => c.2.2, cols.map fun c => c.1, cols.map fun c => c.2.1⟩, ?_,
    ⟨e, fun j k => (List.range E.par.enc.N).map ((r.col j).mlwe k), t, ρ, σ⟩, ?_, ?_, ?_, ?_⟩
  · unfold commit
    rw [if_neg (by omega), hfl, go_bind_ok, h1, go_bind_ok]
    dsimp only
    rw [h4, go_bind_ok]
    rfl
  · refine ⟨h5, hlen, by simpa using h2, ?_, by simpa using h2, ?_, ?_, ?_, ?_, fun j hj k hk => ht6 j (by omega) k hk, ?_, ?_, hσ3, ?_, ?_⟩
    · intro r' hr'
      obtain ⟨c, hc, rfl⟩ := List.mem_map.mp hr'
      exact (hcl c hc).1
    · intro r' hr'
      obtain ⟨c, hc, rfl⟩ := List.mem_map.mp hr'
      exact (hcl c hc).2.1
    · intro j hj k hk
      refine ⟨he1 j (by omega) k hk, ?_⟩
      dsimp only
      rw [henc j hj]
      exact he2 j (by omega) k hk
    · intro j hj k hk
      refine ⟨by simp, ?_⟩
      dsimp only
      rw [hmlwe j hj]
      exact (h3 j (by omega)).2.1.2 k hk
    · intro j hj k hk
      refine ⟨ht1 j (by omega) k hk, ?_⟩
      dsimp only
      rw [flatMap_getD (fun c : List T × List T × List T' => c.2.2) E.par.inRank 0 ([], [], []) cols
        (fun c hc => (hcl c hc).2.2) j k (by omega) hk]
      exact ht3 j (by omega) k hk
    · intro j hj k hk
      dsimp only
      rw [← ht4 j (by omega) k hk]
      congr 1
      · congr 1
        · apply sum_congr rfl
          intro l hl
          rw [he2 j (by omega) l (mem_range.mp hl)]
        · apply sum_congr rfl
          intro l hl
          have := mem_range.mp hl
          rw [(h3 j (by omega)).2.1.2 l (by omega)]
      · rw [(h3 j (by omega)).2.1.2 _ (by omega)]
    · intro j hj k hk
      exact ⟨ht2 j (by omega) k hk, ht5 j (by omega) k hk⟩
    · intro k hk
      exact ⟨hσ1 k hk, hσ2 k hk⟩
    · intro x
      have hev := matEntry_eval h.mat r.row v hr x
      rw [show ∑ t ∈ range v.length, v.getD t 0 * x ^ t = evalAt v.length v x from rfl, ← hev]
      apply sum_congr rfl
      intro k hk
      unfold leftAt
      congr 1
      rw [← sum_cells]
      apply sum_congr rfl
      intro j hj
      have hj := mem_range.mp hj
      apply sum_congr rfl
      intro s hs
      rw [he4 j (by omega) k (mem_range.mp hk) s (mem_range.mp hs), colEntry, if_neg (by omega)]
  · intro j hj k hk
    exact he3 j (by omega) k hk
  · intro j _ k _; rfl
  · intro j hj k hk s hs
    exact he4 j (by omega) k hk s hs

end JEnv

end Ringo
