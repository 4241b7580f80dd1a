import Verif.Proof.Words
import Verif.Proof.JLimbs

/-!
# The law of the commitment key
-/

namespace Ringo

open MeasureTheory

/-! ## Entries of a polynomial -/

/-- Entry `j` of row `i`. -/
def ent (p : LimbPoly) (i j : ℕ) : ℕ := (p.getD i []).getD j 0

/-- The polynomial with the given entries. -/
def ofEnt (L n : ℕ) (f : ℕ → ℕ → ℕ) : LimbPoly := (List.range L).map fun i => (List.range n).map (f i)

/-- `p` with another entry. -/
def putEnt (p : LimbPoly) (l k x : ℕ) : LimbPoly := p.set l ((p.getD l []).set k x)

theorem row_length {L n : ℕ} {p : LimbPoly} (h : HasShape L n p) {i : ℕ} (hi : i < L) : (p.getD i []).length = n := by
  have hl : i < p.length := by rw [h.len]; exact hi
  rw [List.getD_eq_getElem _ _ hl]
  exact h.all _ (List.getElem_mem hl)

theorem poly_ext {L n : ℕ} {p p' : LimbPoly} (h : HasShape L n p) (h' : HasShape L n p')
    (he : ∀ i < L, ∀ j < n, ent p i j = ent p' i j) : p = p' := by
  apply List.ext_getElem (h.len.trans h'.len.symm)
  intro i h1 h2
  have hi : i < L := by rw [← h.len]; exact h1
  apply List.ext_getElem ((h.all _ (List.getElem_mem h1)).trans (h'.all _ (List.getElem_mem h2)).symm)
  intro j h3 h4
  have hj : j < n := by rw [← h.all _ (List.getElem_mem h1)]; exact h3
  have := he i hi j hj
  unfold ent at this
  rwa [List.getD_eq_getElem p _ h1, List.getD_eq_getElem p' _ h2, List.getD_eq_getElem _ _ h3,
    List.getD_eq_getElem _ _ h4] at this

theorem ofEnt_shape (L n : ℕ) (f : ℕ → ℕ → ℕ) : HasShape L n (ofEnt L n f) :=
  ⟨by simp [ofEnt], fun row hr => by
    obtain ⟨i, -, rfl⟩ := List.mem_map.mp hr
    simp⟩

theorem ent_ofEnt {L n : ℕ} (f : ℕ → ℕ → ℕ) {i j : ℕ} (hi : i < L) (hj : j < n) : ent (ofEnt L n f) i j = f i j := by
  unfold ent ofEnt
  have h1 : ((List.range L).map fun i => (List.range n).map (f i)).getD i [] = (List.range n).map (f i) := by
    rw [List.getD_eq_getElem _ _ (by simpa using hi)]
    simp
  rw [h1, List.getD_eq_getElem _ _ (by simpa using hj)]
  simp

theorem putEnt_shape {L n : ℕ} {p : LimbPoly} (h : HasShape L n p) {l : ℕ} (hl : l < L) (k x : ℕ) :
    HasShape L n (putEnt p l k x) :=
  h.set (by rw [List.length_set]; exact row_length h hl)

theorem ent_putEnt {L n : ℕ} {p : LimbPoly} (h : HasShape L n p) {l k : ℕ} (hl : l < L) (hk : k < n) (x i j : ℕ) :
    ent (putEnt p l k x) i j = if i = l ∧ j = k then x else ent p i j := by
  have hlp : l < p.length := by rw [h.len]; exact hl
  have hkp : k < (p.getD l []).length := by rw [row_length h hl]; exact hk
  unfold ent putEnt
  by_cases hi : i = l
  · subst hi
    have h1 : (p.set i ((p.getD i []).set k x)).getD i [] = (p.getD i []).set k x := by
      rw [List.getD_eq_getElem _ _ (by rw [List.length_set]; exact hlp), List.getElem_set_self]
    rw [h1]
    by_cases hj : j = k
    · subst hj
      rw [if_pos ⟨rfl, rfl⟩, List.getD_eq_getElem _ _ (by rw [List.length_set]; exact hkp), List.getElem_set_self]
    · rw [if_neg (by tauto)]
      simp only [List.getD_eq_getElem?_getD, List.getElem?_set_ne (Ne.symm hj)]
  · rw [if_neg (by tauto)]
    simp only [List.getD_eq_getElem?_getD, List.getElem?_set_ne (Ne.symm hi)]

theorem reduced_iff {R : LimbRing} {p : LimbPoly} : R.Reduced p ↔ HasShape R.moduli.length R.n p ∧
    ∀ i < R.moduli.length, ∀ j < R.n, ent p i j < R.moduli.getD i 1 := by
  constructor
  · rintro ⟨h, h2⟩
    refine ⟨h, fun i hi j hj => ?_⟩
    have hl : i < p.length := by rw [h.len]; exact hi
    have hr : j < (p[i]).length := by rw [h.all _ (List.getElem_mem hl)]; exact hj
    unfold ent
    rw [List.getD_eq_getElem _ _ hl, List.getD_eq_getElem _ _ hr, List.getD_eq_getElem _ _ hi]
    exact h2 i _ _ (List.getElem?_eq_getElem hl) (List.getElem?_eq_getElem hi) _ (List.getElem_mem hr)
  · rintro ⟨h, h2⟩
    refine ⟨h, fun l row q e1 e2 x hx => ?_⟩
    obtain ⟨h3, rfl⟩ := List.getElem?_eq_some_iff.mp e1
    obtain ⟨h4, rfl⟩ := List.getElem?_eq_some_iff.mp e2
    obtain ⟨j, h5, rfl⟩ := List.getElem_of_mem hx
    have := h2 l h4 j (by rw [← h.all _ (List.getElem_mem h3)]; exact h5)
    unfold ent at this
    rwa [List.getD_eq_getElem _ _ h3, List.getD_eq_getElem _ _ h5, List.getD_eq_getElem _ _ h4] at this

theorem prod_getD (l : List ℕ) : ∏ i ∈ Finset.range l.length, l.getD i 1 = l.prod := by
  induction l with
  | nil => rfl
  | cons a l ih =>
    rw [List.length_cons, Finset.prod_range_succ', List.prod_cons, ← ih, mul_comm]
    simp

/-! ## A polynomial -/

/-- The polynomials of the ring that are zero from entry `l` of column `k` on. -/
def partKey (R : LimbRing) (k l : ℕ) : Set LimbPoly :=
  {p | R.Reduced p ∧ ∀ i < R.moduli.length, ∀ j < R.n, k < j ∨ j = k ∧ l ≤ i → ent p i j = 0}

variable {R : LimbRing}

theorem keyStep_draws (hq : ∀ q ∈ R.moduli, 1 ≤ q ∧ q < 2 ^ 64) {k l : ℕ} (hk : k < R.n)
    (hl : l < R.moduli.length) {s : LimbPoly} (hs : HasShape R.moduli.length R.n s) :
    Draws (fun w pos => do
      let q ← idx R.moduli l
      let (x, pos) ← sampleNAt w pos q
      let p ← modIdx s l fun row => setIdx row k x
      pure (p, pos)) {p | ∃ x < R.moduli.getD l 1, p = putEnt s l k x} (R.moduli.getD l 1) := by
  have hg : R.moduli.getD l 1 = R.moduli[l] := List.getD_eq_getElem _ _ hl
  obtain ⟨q1, q2⟩ := hq _ (List.getElem_mem hl)
  have := (sampleNAt_draws q1 q2).map (fun x => putEnt s l k x) (fun x _ x' _ h => by
    have := congrArg (fun p => ent p l k) h
    simp only [ent_putEnt hs hl hk, and_self, if_true] at this
    exact this) {p | ∃ x < R.moduli.getD l 1, p = putEnt s l k x} (fun b => by
      rw [hg]
      exact ⟨fun ⟨x, h1, h2⟩ => ⟨x, h1, h2.symm⟩, fun ⟨x, h1, h2⟩ => ⟨x, h1, h2.symm⟩⟩)
  rw [hg] at this ⊢
  have heq : (fun w pos => do
      let q ← idx R.moduli l
      let (x, pos) ← sampleNAt w pos q
      let p ← modIdx s l fun row => setIdx row k x
      pure (p, pos)) = fun w pos => sampleNAt w pos R.moduli[l] >>= fun r => Except.ok (putEnt s l k r.1, r.2) := by
    funext w pos
    rw [idx_ok hl, go_bind_ok]
    congr 1
    funext r
    have hlp : l < s.length := by rw [hs.len]; exact hl
    have hrow : k < (s[l]).length := by rw [hs.all _ (List.getElem_mem hlp)]; exact hk
    have h2 : setIdx s[l] k r.1 = .ok ((s[l]).set k r.1) := by
      unfold setIdx; rw [if_pos hrow]
    have h3 : setIdx s l ((s[l]).set k r.1) = .ok (s.set l ((s[l]).set k r.1)) := by
      unfold setIdx; rw [if_pos hlp]
    obtain ⟨x, pos'⟩ := r
    dsimp only at h2 h3 ⊢
    unfold modIdx putEnt
    rw [idx_ok hlp, go_bind_ok]
    dsimp only
    rw [h2, go_bind_ok, h3, go_bind_ok, List.getD_eq_getElem _ _ hlp]
    rfl
  rw [heq]
  exact this

theorem keyCol_draws (hq : ∀ q ∈ R.moduli, 1 ≤ q ∧ q < 2 ^ 64) {k : ℕ} (hk : k < R.n) {s : LimbPoly}
    (hs : s ∈ partKey R k 0) :
    Draws (fun w pos => forRange 0 R.moduli.length 1 (s, pos) fun s l => do
      let q ← idx R.moduli l
      let (x, pos) ← sampleNAt w s.2 q
      let p ← modIdx s.1 l fun row => setIdx row k x
      pure (p, pos))
      {p | p ∈ partKey R (k + 1) 0 ∧ ∀ i < R.moduli.length, ∀ j < k, ent p i j = ent s i j} R.moduli.prod := by
  have hpos : ∀ i < R.moduli.length, 0 < R.moduli.getD i 1 := by
    intro i hi
    rw [List.getD_eq_getElem _ _ hi]
    exact (hq _ (List.getElem_mem hi)).1
  have hfin : {p | p ∈ partKey R (k + 1) 0 ∧ ∀ i < R.moduli.length, ∀ j < k, ent p i j = ent s i j} =
      {p | p ∈ partKey R k R.moduli.length ∧ ∀ i < R.moduli.length, ∀ j < k, ent p i j = ent s i j} := by
    ext p
    refine and_congr_left fun _ => and_congr_right fun _ => ⟨fun h i hi j hj hc => h i hi j hj ?_,
      fun h i hi j hj hc => h i hi j hj ?_⟩
    · omega
    · omega
  rw [hfin, ← prod_getD]
  refine Draws.loop (fun w s l => do
      let q ← idx R.moduli l
      let (x, pos) ← sampleNAt w s.2 q
      let p ← modIdx s.1 l fun row => setIdx row k x
      pure (p, pos)) (fun l => {p | p ∈ partKey R k l ∧ ∀ i < R.moduli.length, ∀ j < k, ent p i j = ent s i j})
    (fun l => R.moduli.getD l 1) (fun l s => {p | ∃ x < R.moduli.getD l 1, p = putEnt s l k x}) s ?_ _ ?_ ?_ ?_ ?_
  · ext p
    constructor
    · rintro ⟨⟨h1, h2⟩, h3⟩
      refine poly_ext h1.1 hs.1.1 fun i hi j hj => ?_
      by_cases hjk : j < k
      · exact h3 i hi j hjk
      · rw [h2 i hi j hj (by omega), hs.2 i hi j hj (by omega)]
    · rintro rfl
      exact ⟨hs, fun _ _ _ _ => rfl⟩
  · rintro l hl s' ⟨⟨h1, -⟩, -⟩
    exact keyStep_draws hq hk hl h1.1
  · rintro l hl s' ⟨⟨h1, h2⟩, h3⟩ p ⟨x, hx, rfl⟩
    refine ⟨⟨reduced_iff.mpr ⟨putEnt_shape h1.1 hl k x, fun i hi j hj => ?_⟩, fun i hi j hj hc => ?_⟩,
      fun i hi j hj => ?_⟩
    · rw [ent_putEnt h1.1 hl hk]
      split
      · rename_i h; rw [h.1]; exact hx
      · exact (reduced_iff.mp h1).2 i hi j hj
    · rw [ent_putEnt h1.1 hl hk, if_neg (by omega)]
      exact h2 i hi j hj (by omega)
    · rw [ent_putEnt h1.1 hl hk, if_neg (by omega)]
      exact h3 i hi j hj
  · rintro l hl b ⟨⟨h1, h2⟩, h3⟩
    have hsh := putEnt_shape h1.1 hl k 0
    refine ⟨putEnt b l k 0, ⟨⟨reduced_iff.mpr ⟨hsh, fun i hi j hj => ?_⟩, fun i hi j hj hc => ?_⟩,
      fun i hi j hj => ?_⟩, ent b l k, (reduced_iff.mp h1).2 l hl k hk, ?_⟩
    · rw [ent_putEnt h1.1 hl hk]
      split
      · exact hpos i hi
      · exact (reduced_iff.mp h1).2 i hi j hj
    · rw [ent_putEnt h1.1 hl hk]
      split
      · rfl
      · exact h2 i hi j hj (by omega)
    · rw [ent_putEnt h1.1 hl hk, if_neg (by omega)]
      exact h3 i hi j hj
    · refine poly_ext h1.1 (putEnt_shape hsh hl _ _) fun i hi j hj => ?_
      rw [ent_putEnt hsh hl hk, ent_putEnt h1.1 hl hk]
      split
      · rename_i h; rw [h.1, h.2]
      · rfl
  · rintro l hl s1 ⟨⟨h1, h2⟩, h3⟩ s2 ⟨⟨h4, h5⟩, h6⟩ b ⟨x, -, hb⟩ ⟨x', -, hb'⟩
    refine poly_ext h1.1 h4.1 fun i hi j hj => ?_
    by_cases hij : i = l ∧ j = k
    · rw [h2 i hi j hj (by omega), h5 i hi j hj (by omega)]
    · have := congrArg (fun p => ent p i j) (hb.symm.trans hb')
      simp only [ent_putEnt h1.1 hl hk, ent_putEnt h4.1 hl hk, if_neg hij] at this
      exact this

theorem keyPoly_draws (hq : ∀ q ∈ R.moduli, 1 ≤ q ∧ q < 2 ^ 64) :
    Draws (fun w pos => keyPoly w R R.n pos) {p | R.Reduced p} (R.moduli.prod ^ R.n) := by
  have hpos : ∀ i < R.moduli.length, 0 < R.moduli.getD i 1 := by
    intro i hi
    rw [List.getD_eq_getElem _ _ hi]
    exact (hq _ (List.getElem_mem hi)).1
  have hnew := reduced_new (R := R) fun q h => (hq q h).1
  have hent : ∀ i < R.moduli.length, ∀ j < R.n, ent R.newPoly i j = 0 := by
    intro i hi j hj
    unfold ent LimbRing.newPoly
    have h1 : (List.replicate R.moduli.length (List.replicate R.n 0)).getD i [] = List.replicate R.n 0 := by
      rw [List.getD_eq_getElem _ _ (by simpa using hi), List.getElem_replicate]
    rw [h1, List.getD_eq_getElem _ _ (by simpa using hj), List.getElem_replicate]
  have hfin : {p | R.Reduced p} = partKey R R.n 0 := by
    ext p
    exact ⟨fun h => ⟨h, fun i hi j hj hc => by omega⟩, fun h => h.1⟩
  have hprod : R.moduli.prod ^ R.n = ∏ _k ∈ Finset.range R.n, R.moduli.prod := by simp
  rw [hfin, hprod]
  refine Draws.loop (fun w s k => forRange 0 R.moduli.length 1 s fun s l => do
      let q ← idx R.moduli l
      let (x, pos) ← sampleNAt w s.2 q
      let p ← modIdx s.1 l fun row => setIdx row k x
      pure (p, pos)) (fun k => partKey R k 0) (fun _ => R.moduli.prod)
    (fun k s => {p | p ∈ partKey R (k + 1) 0 ∧ ∀ i < R.moduli.length, ∀ j < k, ent p i j = ent s i j})
    R.newPoly ?_ _ ?_ ?_ ?_ ?_
  · ext p
    constructor
    · rintro ⟨h1, h2⟩
      exact poly_ext h1.1 hnew.1 fun i hi j hj => by rw [h2 i hi j hj (by omega), hent i hi j hj]
    · rintro rfl
      exact ⟨hnew, fun i hi j hj _ => hent i hi j hj⟩
  · intro k hk s hs
    exact keyCol_draws hq hk hs
  · rintro k hk s hs p ⟨h, -⟩
    exact h
  · intro k hk b hb
    have hr := (reduced_iff.mp hb.1).2
    have he : ∀ i < R.moduli.length, ∀ j < R.n,
        ent (ofEnt R.moduli.length R.n fun i j => if j < k then ent b i j else 0) i j =
          if j < k then ent b i j else 0 := fun i hi j hj => ent_ofEnt _ hi hj
    refine ⟨ofEnt R.moduli.length R.n fun i j => if j < k then ent b i j else 0,
      ⟨reduced_iff.mpr ⟨ofEnt_shape _ _ _, fun i hi j hj => ?_⟩, fun i hi j hj hc => ?_⟩, hb, fun i hi j hj => ?_⟩
    · rw [he i hi j hj]
      split
      · exact hr i hi j hj
      · exact hpos i hi
    · rw [he i hi j hj, if_neg (by omega)]
    · rw [he i hi j (by omega), if_pos hj]
  · rintro k hk s ⟨h1, h2⟩ s' ⟨h3, h4⟩ b ⟨-, h5⟩ ⟨-, h6⟩
    refine poly_ext h1.1 h3.1 fun i hi j hj => ?_
    by_cases hjk : j < k
    · rw [← h5 i hi j hjk, ← h6 i hi j hjk]
    · rw [h2 i hi j hj (by omega), h4 i hi j hj (by omega)]

/-! ## A matrix -/

/-- A list of independent draws. -/
theorem drawsList {α : Type} [Countable α] {c : (ℕ → ℕ) → ℕ → Go (α × ℕ)} {P : α → Prop} {n : ℕ}
    (hc : Draws c {a | P a} n) (b : ℕ) :
    Draws (fun w pos => forRange 0 b 1 (([] : List α), pos) fun s _ => do
      let (p, pos) ← c w s.2
      pure (s.1 ++ [p], pos)) {l | AllOf b P l} (n ^ b) := by
  have hprod : n ^ b = ∏ _k ∈ Finset.range b, n := by simp
  rw [hprod]
  refine Draws.loop (fun w s _ => do
      let (p, pos) ← c w s.2
      pure (s.1 ++ [p], pos)) (fun k => {l | AllOf k P l}) (fun _ => n)
    (fun _ s => {l | ∃ a, P a ∧ s ++ [a] = l}) [] ?_ _ ?_ ?_ ?_ ?_
  · ext l
    constructor
    · rintro ⟨h, -⟩
      exact List.length_eq_zero_iff.mp h
    · rintro rfl
      exact ⟨rfl, by simp⟩
  · intro k hk s hs
    exact hc.map (fun a => s ++ [a]) (fun a _ a' _ h => by simpa using h) _ (fun b => Iff.rfl)
  · rintro k hk s ⟨h1, h2⟩ l ⟨a, ha, rfl⟩
    refine ⟨by rw [List.length_append, h1]; rfl, fun x hx => ?_⟩
    rcases List.mem_append.mp hx with h | h
    · exact h2 x h
    · rw [List.mem_singleton.mp h]; exact ha
  · rintro k hk l ⟨h1, h2⟩
    rcases List.eq_nil_or_concat l with rfl | ⟨s, a, rfl⟩
    · cases h1
    · rw [List.concat_eq_append] at h1 h2 ⊢
      rw [List.length_append] at h1
      exact ⟨s, ⟨by simpa using h1, fun x hx => h2 x (List.mem_append_left _ hx)⟩, a, h2 a (by simp), rfl⟩
  · rintro k hk s - s' - l ⟨a, -, h1⟩ ⟨a', -, h2⟩
    exact (List.append_inj' (h1.trans h2.symm) rfl).1

theorem keyMat_draws (hq : ∀ q ∈ R.moduli, 1 ≤ q ∧ q < 2 ^ 64) (a b : ℕ) :
    Draws (fun w pos => keyMat w R R.n a b pos) {M | MatOf a b R.Reduced M} (R.moduli.prod ^ (R.n * b * a)) := by
  have := drawsList (drawsList (keyPoly_draws hq) b) a
  rw [← pow_mul, ← pow_mul, ← mul_assoc] at this
  exact this

end Ringo
