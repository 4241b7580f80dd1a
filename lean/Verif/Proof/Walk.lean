import Verif.Spec.Walk

namespace Ringo

variable {F G : Type}

theorem get?_nil (v : Val F) : v.get? [] = some v := by cases v <;> simp [Val.get?]
theorem get?_ptr (v : Val F) (r : List Nat) : (Val.ptr v).get? (0 :: r) = v.get? r := by
  simp [Val.get?]
theorem get?_cons_zero (v : Val F) (vs : List (Val F)) (r : List Nat) :
    (Val.fields (v :: vs)).get? (0 :: r) = v.get? r := by
  rw [Val.get?]; simp
theorem get?_cons_succ (v : Val F) (vs : List (Val F)) (i : Nat) (r : List Nat) :
    (Val.fields (v :: vs)).get? ((i + 1) :: r) = (Val.fields vs).get? (i :: r) := by
  rw [Val.get?, Val.get?]; simp
theorem get?_fields_nil (i : Nat) (r : List Nat) :
    (Val.fields ([] : List (Val F))).get? (i :: r) = none := by
  rw [Val.get?]; simp
theorem get?_pub (s i : Bool) (w : List F) (j : Nat) (r : List Nat) :
    (Val.pub s i w).get? (j :: r) = none := by rw [Val.get?] <;> simp
theorem get?_wit (s i : Bool) (w : List F) (j : Nat) (r : List Nat) :
    (Val.wit s i w).get? (j :: r) = none := by rw [Val.get?] <;> simp
theorem get?_ptr_succ (v : Val F) (j : Nat) (r : List Nat) :
    (Val.ptr v).get? ((j + 1) :: r) = none := by rw [Val.get?] <;> simp
theorem get?_other (j : Nat) (r : List Nat) : (Val.other : Val F).get? (j :: r) = none := by
  rw [Val.get?] <;> simp
theorem get?_nilPtr (j : Nat) (r : List Nat) : (Val.nilPtr : Val F).get? (j :: r) = none := by
  rw [Val.get?] <;> simp

theorem Settable.ptr {v : Val F} (h : Settable (.ptr v)) : Settable v := fun path s i w hp =>
  h (0 :: path) s i w (by rwa [get?_ptr])
theorem Settable.head {v : Val F} {vs} (h : Settable (.fields (v :: vs))) : Settable v :=
  fun path s i w hp => h (0 :: path) s i w (by rwa [get?_cons_zero])
theorem Settable.tail {v : Val F} {vs} (h : Settable (.fields (v :: vs))) :
    Settable (.fields vs) := by
  intro path s i w hp
  cases path with
  | nil => simp [get?_nil] at hp
  | cons j r => exact h ((j + 1) :: r) s i w (by rwa [get?_cons_succ])

theorem FullRank.ptr {n : Nat} {v : Val F} (h : FullRank n (.ptr v)) : FullRank n v :=
  fun path s i w hp => h (0 :: path) s i w (by rwa [get?_ptr])
theorem FullRank.head {n : Nat} {v : Val F} {vs} (h : FullRank n (.fields (v :: vs))) :
    FullRank n v :=
  fun path s i w hp => h (0 :: path) s i w (by rwa [get?_cons_zero])
theorem FullRank.tail {n : Nat} {v : Val F} {vs} (h : FullRank n (.fields (v :: vs))) :
    FullRank n (.fields vs) := by
  intro path s i w hp
  cases path with
  | nil => simp [get?_nil] at hp
  | cons j r => exact h ((j + 1) :: r) s i w (by rwa [get?_cons_succ])

section
variable {p : Nat}

/-- What `firstWalk` leaves behind: every leaf of the compiled value `c` holds a handle whose index
lies in the range handed out, and distinct leaves of one kind hold distinct indices. -/
structure Compiled (c0 c1 : Cnt) (c : Val (ZMod p)) : Prop where
  le_w : c0.w ≤ c1.w
  le_pw : c0.pw ≤ c1.pw
  wit : ∀ path s i h, c.get? path = some (.wit s i h) →
    ∃ n, c0.w ≤ n ∧ n < c1.w ∧ h = idToWitness p (UInt64.ofNat n)
  pub : ∀ path s i h, c.get? path = some (.pub s i h) →
    ∃ n, c0.pw ≤ n ∧ n < c1.pw ∧ h = idToPublicWitness p (UInt64.ofNat n)

/-- What the prover's walk leaves behind. -/
structure Filled (c0 c1 : Cnt) (c : Val (ZMod p)) (a : Val F) (st st' : WalkState F) : Prop where
  cnt : st'.cnt = c1
  pwl : st'.pw.length = st.pw.length
  swl : st'.sw.length = st.sw.length
  framePw : ∀ n, n < c0.pw ∨ c1.pw ≤ n → st'.pw[n]? = st.pw[n]?
  frameSw : ∀ n, n < c0.w ∨ c1.w ≤ n → st'.sw[n]? = st.sw[n]?
  wit : ∀ path s i h, c.get? path = some (.wit s i h) →
    ∃ n s' i' w, c0.w ≤ n ∧ n < c1.w ∧ h = idToWitness p (UInt64.ofNat n) ∧
      a.get? path = some (.wit s' i' w) ∧ st'.sw[n]? = some w
  pub : ∀ path s i h, c.get? path = some (.pub s i h) →
    ∃ n s' i' w, c0.pw ≤ n ∧ n < c1.pw ∧ h = idToPublicWitness p (UInt64.ofNat n) ∧
      a.get? path = some (.pub s' i' w) ∧ st'.pw[n]? = some w

/-- What the verifier's walk leaves behind. -/
structure VFilled (n0 n1 : Nat) (c : Val (ZMod p)) (a : Val F) (st st' : VWalkState F) : Prop where
  cnt : st'.cnt = n1
  pwl : st'.pw.length = st.pw.length
  framePw : ∀ n, n < n0 ∨ n1 ≤ n → st'.pw[n]? = st.pw[n]?
  pub : ∀ path s i h, c.get? path = some (.pub s i h) →
    ∃ n s' i' w, n0 ≤ n ∧ n < n1 ∧ h = idToPublicWitness p (UInt64.ofNat n) ∧
      a.get? path = some (.pub s' i' w) ∧ st'.pw[n]? = some w

mutual
theorem firstWalk_compiled : ∀ (v : Val (ZMod p)) (c : Cnt), Settable v →
    Compiled c (firstWalk v c).2.1 (firstWalk v c).1
  | .pub s i w, c, h => by
    have : s = true := h [] s i w (by simp [get?_nil])
    subst this
    refine ⟨by simp [firstWalk], by simp [firstWalk], ?_, ?_⟩ <;> intro path s' i' w' hp <;>
      cases path <;> simp_all [firstWalk, get?_nil, get?_pub]
    exact ⟨c.pw, by omega, by omega, hp.2.2.symm⟩
  | .wit s i w, c, h => by
    have : s = true := h [] s i w (by simp [get?_nil])
    subst this
    refine ⟨by simp [firstWalk], by simp [firstWalk], ?_, ?_⟩ <;> intro path s' i' w' hp <;>
      cases path <;> simp_all [firstWalk, get?_nil, get?_wit]
    exact ⟨c.w, by omega, by omega, hp.2.2.symm⟩
  | .ptr v, c, h => by
    have ih := firstWalk_compiled v c h.ptr
    simp only [firstWalk]
    refine ⟨ih.le_w, ih.le_pw, ?_, ?_⟩ <;> intro path s' i' w' hp <;>
      rcases path with _ | ⟨_ | j, r⟩ <;> simp [get?_nil, get?_ptr_succ, get?_ptr] at hp
    · exact ih.wit r s' i' w' hp
    · exact ih.pub r s' i' w' hp
  | .nilPtr, c, h => by
    refine ⟨by simp [firstWalk], by simp [firstWalk], ?_, ?_⟩ <;> intro path s' i' w' hp <;>
      cases path <;> simp [firstWalk, get?_nil, get?_nilPtr] at hp
  | .fields vs, c, h => by
    have ih := firstWalks_compiled vs c h
    simpa only [firstWalk] using ih
  | .other, c, h => by
    refine ⟨by simp [firstWalk], by simp [firstWalk], ?_, ?_⟩ <;> intro path s' i' w' hp <;>
      cases path <;> simp [firstWalk, get?_nil, get?_other] at hp
theorem firstWalks_compiled : ∀ (vs : List (Val (ZMod p))) (c : Cnt), Settable (.fields vs) →
    Compiled c (firstWalks vs c).2 (.fields (firstWalks vs c).1)
  | [], c, h => by
    refine ⟨by simp [firstWalks], by simp [firstWalks], ?_, ?_⟩ <;> intro path s' i' w' hp <;>
      cases path <;> simp [firstWalks, get?_nil, get?_fields_nil] at hp
  | v :: vs, c, h => by
    have i1 := firstWalk_compiled v c h.head
    have i2 := firstWalks_compiled vs (firstWalk v c).2.1 h.tail
    simp only [firstWalks]
    refine ⟨i1.le_w.trans i2.le_w, i1.le_pw.trans i2.le_pw, ?_, ?_⟩ <;> intro path s' i' w' hp <;>
      rcases path with _ | ⟨_ | j, r⟩ <;>
      simp [get?_nil, get?_cons_zero, get?_cons_succ] at hp
    · obtain ⟨n, a1, a2, a3⟩ := i1.wit r s' i' w' hp
      exact ⟨n, a1, lt_of_lt_of_le a2 i2.le_w, a3⟩
    · obtain ⟨n, a1, a2, a3⟩ := i2.wit (j :: r) s' i' w' hp
      exact ⟨n, i1.le_w.trans a1, a2, a3⟩
    · obtain ⟨n, a1, a2, a3⟩ := i1.pub r s' i' w' hp
      exact ⟨n, a1, lt_of_lt_of_le a2 i2.le_pw, a3⟩
    · obtain ⟨n, a1, a2, a3⟩ := i2.pub (j :: r) s' i' w' hp
      exact ⟨n, i1.le_pw.trans a1, a2, a3⟩
end

theorem NoLeaf.not_pub {s i : Bool} {w : List F} (h : NoLeaf (.pub s i w)) : False :=
  (h [] s i w).1 (get?_nil _)
theorem NoLeaf.not_wit {s i : Bool} {w : List F} (h : NoLeaf (.wit s i w)) : False :=
  (h [] s i w).2 (get?_nil _)
theorem NoLeaf.ptr {v : Val F} (h : NoLeaf (.ptr v)) : NoLeaf v := fun path s i w => by
  have := h (0 :: path) s i w
  rwa [get?_ptr] at this
theorem NoLeaf.head {v : Val F} {vs} (h : NoLeaf (.fields (v :: vs))) : NoLeaf v := fun path s i w => by
  have := h (0 :: path) s i w
  rwa [get?_cons_zero] at this
theorem NoLeaf.tail {v : Val F} {vs} (h : NoLeaf (.fields (v :: vs))) : NoLeaf (.fields vs) := by
  intro path s i w
  cases path with
  | nil => simp [get?_nil]
  | cons j r =>
    have := h ((j + 1) :: r) s i w
    rwa [get?_cons_succ] at this

mutual
theorem firstWalk_noLeaf : ∀ (v : Val (ZMod p)) (c : Cnt), NoLeaf v →
    (firstWalk v c).2.1 = c ∧ NoLeaf (firstWalk v c).1
  | .pub _ _ _, _, h => h.not_pub.elim
  | .wit _ _ _, _, h => h.not_wit.elim
  | .ptr v, c, h => by
    obtain ⟨h1, h2⟩ := firstWalk_noLeaf v c h.ptr
    refine ⟨by simpa only [firstWalk] using h1, fun path s i w => ?_⟩
    rcases path with _ | ⟨_ | j, r⟩ <;> simp only [firstWalk, get?_nil, get?_ptr, get?_ptr_succ] <;> simp
    exact ⟨(h2 r s i w).1, (h2 r s i w).2⟩
  | .nilPtr, c, h => ⟨by simp [firstWalk], by simpa [firstWalk] using h⟩
  | .fields vs, c, h => by
    obtain ⟨h1, h2⟩ := firstWalks_noLeaf vs c h
    exact ⟨by simpa only [firstWalk] using h1, by simpa only [firstWalk] using h2⟩
  | .other, c, h => ⟨by simp [firstWalk], by simpa [firstWalk] using h⟩
theorem firstWalks_noLeaf : ∀ (vs : List (Val (ZMod p))) (c : Cnt), NoLeaf (.fields vs) →
    (firstWalks vs c).2 = c ∧ NoLeaf (.fields (firstWalks vs c).1)
  | [], c, h => ⟨by simp [firstWalks], by simpa [firstWalks] using h⟩
  | v :: vs, c, h => by
    obtain ⟨h1, h2⟩ := firstWalk_noLeaf v c h.head
    obtain ⟨h3, h4⟩ := firstWalks_noLeaf vs c h.tail
    simp only [firstWalks, h1]
    refine ⟨h3, fun path s i w => ?_⟩
    rcases path with _ | ⟨_ | j, r⟩
    · simp [get?_nil]
    · rw [get?_cons_zero]; exact h2 r s i w
    · rw [get?_cons_succ]; exact h4 (j :: r) s i w
end

mutual
theorem prvWalk_noLeaf (rank : Nat) : ∀ (a : Val F) (st : WalkState F), NoLeaf a →
    prvWalk rank a st = .ok (st, false)
  | .pub _ _ _, _, h => h.not_pub.elim
  | .wit _ _ _, _, h => h.not_wit.elim
  | .ptr v, st, h => by simp [prvWalk, prvWalk_noLeaf rank v st h.ptr]
  | .nilPtr, st, h => by simp [prvWalk]
  | .fields vs, st, h => by simp [prvWalk, prvWalks_noLeaf rank vs st h]
  | .other, st, h => by simp [prvWalk]
theorem prvWalks_noLeaf (rank : Nat) : ∀ (as : List (Val F)) (st : WalkState F), NoLeaf (.fields as) →
    prvWalks rank as st = .ok st
  | [], st, h => by simp [prvWalks]
  | a :: as, st, h => by
    simp [prvWalks, prvWalk_noLeaf rank a st h.head, prvWalks_noLeaf rank as st h.tail]
end

mutual
theorem vrfWalk_noLeaf (rank : Nat) : ∀ (a : Val F) (st : VWalkState F), NoLeaf a →
    vrfWalk rank a st = .ok (st, false)
  | .pub _ _ _, _, h => h.not_pub.elim
  | .wit _ _ _, _, h => h.not_wit.elim
  | .ptr v, st, h => by simp [vrfWalk, vrfWalk_noLeaf rank v st h.ptr]
  | .nilPtr, st, h => by simp [vrfWalk]
  | .fields vs, st, h => by simp [vrfWalk, vrfWalks_noLeaf rank vs st h]
  | .other, st, h => by simp [vrfWalk]
theorem vrfWalks_noLeaf (rank : Nat) : ∀ (as : List (Val F)) (st : VWalkState F), NoLeaf (.fields as) →
    vrfWalks rank as st = .ok st
  | [], st, h => by simp [vrfWalks]
  | a :: as, st, h => by
    simp [vrfWalks, vrfWalk_noLeaf rank a st h.head, vrfWalks_noLeaf rank as st h.tail]
end

theorem Filled.same {c0 : Cnt} {c : Val (ZMod p)} {a : Val F} {st : WalkState F} (hc : st.cnt = c0)
    (h : NoLeaf c) : Filled c0 c0 c a st st :=
  ⟨hc, rfl, rfl, fun _ _ => rfl, fun _ _ => rfl, fun path s i w hp => ((h path s i w).2 hp).elim,
    fun path s i w hp => ((h path s i w).1 hp).elim⟩

theorem VFilled.same {n0 : Nat} {c : Val (ZMod p)} {a : Val F} {st : VWalkState F} (hc : st.cnt = n0)
    (h : NoLeaf c) : VFilled n0 n0 c a st st :=
  ⟨hc, rfl, fun _ _ => rfl, fun path s i w hp => ((h path s i w).1 hp).elim⟩

theorem prvWalk_filled_noLeaf (rank : Nat) (v : Val (ZMod p)) (a : Val F) (st : WalkState F) (hv : NoLeaf v)
    (ha : NoLeaf a) : ∃ st', prvWalk rank a st = .ok (st', false) ∧
      Filled st.cnt (firstWalk v st.cnt).2.1 (firstWalk v st.cnt).1 a st st' := by
  obtain ⟨h1, h2⟩ := firstWalk_noLeaf v st.cnt hv
  rw [h1]
  exact ⟨st, prvWalk_noLeaf rank a st ha, .same rfl h2⟩

theorem prvWalks_filled_noLeaf (rank : Nat) (vs : List (Val (ZMod p))) (as : List (Val F)) (st : WalkState F)
    (hv : NoLeaf (.fields vs)) (ha : NoLeaf (.fields as)) : ∃ st', prvWalks rank as st = .ok st' ∧
      Filled st.cnt (firstWalks vs st.cnt).2 (.fields (firstWalks vs st.cnt).1) (.fields as) st st' := by
  obtain ⟨h1, h2⟩ := firstWalks_noLeaf vs st.cnt hv
  rw [h1]
  exact ⟨st, prvWalks_noLeaf rank as st ha, .same rfl h2⟩

theorem vrfWalk_filled_noLeaf (rank : Nat) (v : Val (ZMod p)) (a : Val F) (c : Cnt) (st : VWalkState F)
    (hc : st.cnt = c.pw) (hv : NoLeaf v) (ha : NoLeaf a) : ∃ st', vrfWalk rank a st = .ok (st', false) ∧
      VFilled c.pw (firstWalk v c).2.1.pw (firstWalk v c).1 a st st' := by
  obtain ⟨h1, h2⟩ := firstWalk_noLeaf v c hv
  rw [h1]
  exact ⟨st, vrfWalk_noLeaf rank a st ha, .same hc h2⟩

theorem vrfWalks_filled_noLeaf (rank : Nat) (vs : List (Val (ZMod p))) (as : List (Val F)) (c : Cnt)
    (st : VWalkState F) (hc : st.cnt = c.pw) (hv : NoLeaf (.fields vs)) (ha : NoLeaf (.fields as)) :
    ∃ st', vrfWalks rank as st = .ok st' ∧
      VFilled c.pw (firstWalks vs c).2.pw (.fields (firstWalks vs c).1) (.fields as) st st' := by
  obtain ⟨h1, h2⟩ := firstWalks_noLeaf vs c hv
  rw [h1]
  exact ⟨st, vrfWalks_noLeaf rank as st ha, .same hc h2⟩

mutual
theorem prvWalk_filled (rank : Nat) : ∀ (v : Val (ZMod p)) (a : Val F) (st : WalkState F),
    Settable v → SameShape v a → FullRank rank a →
    (firstWalk v st.cnt).2.1.w ≤ st.sw.length → (firstWalk v st.cnt).2.1.pw ≤ st.pw.length →
    ∃ st', prvWalk rank a st = .ok (st', false) ∧
      Filled st.cnt (firstWalk v st.cnt).2.1 (firstWalk v st.cnt).1 a st st'
  | .pub s i w, a, st, h, hs, hf, hw, hpw => by
    have : s = true := h [] s i w (by simp [get?_nil])
    subst this
    cases hs with
    | noLeaf hv _ => exact hv.not_pub.elim
    | @pub _ _ _ s' i' w' =>
    obtain ⟨hi, hl⟩ := hf [] s' i' w' (by simp [get?_nil])
    subst hi
    simp only [firstWalk, if_true] at hpw hw ⊢
    refine ⟨⟨st.pw.set st.cnt.pw w', st.sw, { st.cnt with pw := st.cnt.pw + 1 }⟩, ?_, ?_⟩
    · simp [prvWalk, setIdx, show st.cnt.pw < st.pw.length by omega, hl]
    · refine ⟨rfl, by simp, rfl, ?_, fun _ _ => rfl, ?_, ?_⟩
      · intro n hn
        have : st.cnt.pw ≠ n := by simp only at hn; omega
        simp [this]
      · intro path s i h hp; cases path <;> simp [get?_nil, get?_pub] at hp
      · intro path s i h hp
        cases path <;> simp [get?_nil, get?_pub] at hp
        exact ⟨st.cnt.pw, s', true, w', le_refl _, by simp, hp.2.2.symm, by simp [get?_nil],
          by simp [show st.cnt.pw < st.pw.length by omega]⟩
  | .wit s i w, a, st, h, hs, hf, hw, hpw => by
    have : s = true := h [] s i w (by simp [get?_nil])
    subst this
    cases hs with
    | noLeaf hv _ => exact hv.not_wit.elim
    | @wit _ _ _ s' i' w' =>
    obtain ⟨hi, hl⟩ := hf [] s' i' w' (by simp [get?_nil])
    subst hi
    simp only [firstWalk, if_true] at hpw hw ⊢
    refine ⟨⟨st.pw, st.sw.set st.cnt.w w', { st.cnt with w := st.cnt.w + 1 }⟩, ?_, ?_⟩
    · simp [prvWalk, setIdx, show st.cnt.w < st.sw.length by omega, hl]
    · refine ⟨rfl, rfl, by simp, fun _ _ => rfl, ?_, ?_, ?_⟩
      · intro n hn
        have : st.cnt.w ≠ n := by simp only at hn; omega
        simp [this]
      · intro path s i h hp
        cases path <;> simp [get?_nil, get?_wit] at hp
        exact ⟨st.cnt.w, s', true, w', le_refl _, by simp, hp.2.2.symm, by simp [get?_nil],
          by simp [show st.cnt.w < st.sw.length by omega]⟩
      · intro path s i h hp; cases path <;> simp [get?_nil, get?_wit] at hp
  | .ptr v, a, st, h, hs, hf, hw, hpw => by
    cases hs with
    | noLeaf hv ha => exact prvWalk_filled_noLeaf rank _ _ st hv ha
    | @ptr _ a' hs =>
    simp only [firstWalk] at hw hpw ⊢
    obtain ⟨st', h1, h2⟩ := prvWalk_filled rank v a' st h.ptr hs hf.ptr hw hpw
    refine ⟨st', by simp [prvWalk, h1], h2.cnt, h2.pwl, h2.swl, h2.framePw, h2.frameSw, ?_, ?_⟩ <;>
      intro path s' i' w' hp <;>
      rcases path with _ | ⟨_ | j, r⟩ <;> simp [get?_nil, get?_ptr_succ, get?_ptr] at hp
    · simpa only [get?_ptr] using h2.wit r s' i' w' hp
    · simpa only [get?_ptr] using h2.pub r s' i' w' hp
  | .nilPtr, a, st, h, hs, hf, hw, hpw => by
    cases hs with
    | noLeaf hv ha => exact prvWalk_filled_noLeaf rank _ _ st hv ha
    | nilPtr =>
    refine ⟨st, by simp [prvWalk], rfl, rfl, rfl, fun _ _ => rfl, fun _ _ => rfl, ?_, ?_⟩ <;>
      intro path s' i' w' hp <;>
      cases path <;> simp [firstWalk, get?_nil, get?_nilPtr] at hp
  | .fields vs, a, st, h, hs, hf, hw, hpw => by
    by_cases hn : NoLeaf (Val.fields vs) ∧ NoLeaf a
    · exact prvWalk_filled_noLeaf rank _ _ st hn.1 hn.2
    obtain ⟨as, rfl⟩ : ∃ as, a = .fields as := by
      cases hs with
      | nil => exact ⟨_, rfl⟩
      | cons => exact ⟨_, rfl⟩
      | noLeaf hv ha => exact (hn ⟨hv, ha⟩).elim
    simp only [firstWalk] at hw hpw ⊢
    obtain ⟨st', h1, h2⟩ := prvWalks_filled rank vs as st h hs hf hw hpw
    exact ⟨st', by simp [prvWalk, h1], h2⟩
  | .other, a, st, h, hs, hf, hw, hpw => by
    cases hs with
    | noLeaf hv ha => exact prvWalk_filled_noLeaf rank _ _ st hv ha
    | other =>
    refine ⟨st, by simp [prvWalk], rfl, rfl, rfl, fun _ _ => rfl, fun _ _ => rfl, ?_, ?_⟩ <;>
      intro path s' i' w' hp <;>
      cases path <;> simp [firstWalk, get?_nil, get?_other] at hp
theorem prvWalks_filled (rank : Nat) : ∀ (vs : List (Val (ZMod p))) (as : List (Val F))
    (st : WalkState F),
    Settable (.fields vs) → SameShape (.fields vs) (.fields as) → FullRank rank (.fields as) →
    (firstWalks vs st.cnt).2.w ≤ st.sw.length → (firstWalks vs st.cnt).2.pw ≤ st.pw.length →
    ∃ st', prvWalks rank as st = .ok st' ∧
      Filled st.cnt (firstWalks vs st.cnt).2 (.fields (firstWalks vs st.cnt).1) (.fields as) st st'
  | [], as, st, h, hs, hf, hw, hpw => by
    cases hs with
    | noLeaf hv ha => exact prvWalks_filled_noLeaf rank _ _ st hv ha
    | nil =>
    refine ⟨st, by simp [prvWalks], rfl, rfl, rfl, fun _ _ => rfl, fun _ _ => rfl, ?_, ?_⟩ <;>
      intro path s' i' w' hp <;>
      cases path <;> simp [firstWalks, get?_nil, get?_fields_nil] at hp
  | v :: vs, as, st, h, hs, hf, hw, hpw => by
    cases hs with
    | noLeaf hv ha => exact prvWalks_filled_noLeaf rank _ _ st hv ha
    | @cons _ a' _ as' hs1 hs2 =>
    have c1 := firstWalk_compiled v st.cnt h.head
    have c2 := firstWalks_compiled vs (firstWalk v st.cnt).2.1 h.tail
    simp only [firstWalks] at hw hpw ⊢
    obtain ⟨st1, h1, f1⟩ := prvWalk_filled rank v a' st h.head hs1 hf.head
      (c2.le_w.trans hw) (c2.le_pw.trans hpw)
    have hc : st1.cnt = (firstWalk v st.cnt).2.1 := f1.cnt
    obtain ⟨st2, h2, f2⟩ := prvWalks_filled rank vs as' st1 h.tail hs2 hf.tail
      (by rw [hc, f1.swl]; exact hw) (by rw [hc, f1.pwl]; exact hpw)
    rw [hc] at f2
    refine ⟨st2, by simp [prvWalks, h1, h2], f2.cnt, f2.pwl.trans f1.pwl, f2.swl.trans f1.swl,
      ?_, ?_, ?_, ?_⟩
    · intro n hn
      have := c1.le_pw
      have := c2.le_pw
      rw [f2.framePw n (by omega), f1.framePw n (by omega)]
    · intro n hn
      have := c1.le_w
      have := c2.le_w
      rw [f2.frameSw n (by omega), f1.frameSw n (by omega)]
    · intro path s' i' w' hp
      rcases path with _ | ⟨_ | j, r⟩ <;> simp [get?_nil, get?_cons_zero, get?_cons_succ] at hp
      · obtain ⟨n, s, i, w, a1, a2, a3, a4, a5⟩ := f1.wit r s' i' w' hp
        exact ⟨n, s, i, w, a1, lt_of_lt_of_le a2 c2.le_w, a3, by rwa [get?_cons_zero],
          by rwa [f2.frameSw n (by omega)]⟩
      · obtain ⟨n, s, i, w, a1, a2, a3, a4, a5⟩ := f2.wit (j :: r) s' i' w' hp
        exact ⟨n, s, i, w, c1.le_w.trans a1, a2, a3, by rwa [get?_cons_succ], a5⟩
    · intro path s' i' w' hp
      rcases path with _ | ⟨_ | j, r⟩ <;> simp [get?_nil, get?_cons_zero, get?_cons_succ] at hp
      · obtain ⟨n, s, i, w, a1, a2, a3, a4, a5⟩ := f1.pub r s' i' w' hp
        exact ⟨n, s, i, w, a1, lt_of_lt_of_le a2 c2.le_pw, a3, by rwa [get?_cons_zero],
          by rwa [f2.framePw n (by omega)]⟩
      · obtain ⟨n, s, i, w, a1, a2, a3, a4, a5⟩ := f2.pub (j :: r) s' i' w' hp
        exact ⟨n, s, i, w, c1.le_pw.trans a1, a2, a3, by rwa [get?_cons_succ], a5⟩
end

mutual
theorem vrfWalk_filled (rank : Nat) : ∀ (v : Val (ZMod p)) (a : Val F) (c : Cnt)
    (st : VWalkState F), st.cnt = c.pw →
    Settable v → SameShape v a → FullRank rank a →
    (firstWalk v c).2.1.pw ≤ st.pw.length →
    ∃ st', vrfWalk rank a st = .ok (st', false) ∧
      VFilled c.pw (firstWalk v c).2.1.pw (firstWalk v c).1 a st st'
  | .pub s i w, a, c, st, hc, h, hs, hf, hpw => by
    have : s = true := h [] s i w (by simp [get?_nil])
    subst this
    cases hs with
    | noLeaf hv _ => exact hv.not_pub.elim
    | @pub _ _ _ s' i' w' =>
    obtain ⟨hi, hl⟩ := hf [] s' i' w' (by simp [get?_nil])
    subst hi
    simp only [firstWalk, if_true] at hpw ⊢
    refine ⟨⟨st.pw.set st.cnt w', st.cnt + 1⟩, ?_, ?_⟩
    · simp [vrfWalk, setIdx, show st.cnt < st.pw.length by omega, hl]
    · refine ⟨by simp [hc], by simp, ?_, ?_⟩
      · intro n hn
        have : st.cnt ≠ n := by omega
        simp [this]
      · intro path s i h hp
        cases path <;> simp [get?_nil, get?_pub] at hp
        exact ⟨c.pw, s', true, w', le_refl _, by simp, hp.2.2.symm, by simp [get?_nil],
          by simp [hc, show c.pw < st.pw.length by omega]⟩
  | .wit s i w, a, c, st, hc, h, hs, hf, hpw => by
    have : s = true := h [] s i w (by simp [get?_nil])
    subst this
    cases hs with
    | noLeaf hv _ => exact hv.not_wit.elim
    | wit =>
    refine ⟨st, by simp [vrfWalk], hc, rfl, fun _ _ => rfl, ?_⟩
    intro path s' i' w' hp
    cases path <;> simp [firstWalk, get?_nil, get?_wit] at hp
  | .ptr v, a, c, st, hc, h, hs, hf, hpw => by
    cases hs with
    | noLeaf hv ha => exact vrfWalk_filled_noLeaf rank _ _ c st hc hv ha
    | @ptr _ a' hs =>
    simp only [firstWalk] at hpw ⊢
    obtain ⟨st', h1, h2⟩ := vrfWalk_filled rank v a' c st hc h.ptr hs hf.ptr hpw
    refine ⟨st', by simp [vrfWalk, h1], h2.cnt, h2.pwl, h2.framePw, ?_⟩
    intro path s' i' w' hp
    rcases path with _ | ⟨_ | j, r⟩ <;> simp [get?_nil, get?_ptr_succ, get?_ptr] at hp
    simpa only [get?_ptr] using h2.pub r s' i' w' hp
  | .nilPtr, a, c, st, hc, h, hs, hf, hpw => by
    cases hs with
    | noLeaf hv ha => exact vrfWalk_filled_noLeaf rank _ _ c st hc hv ha
    | nilPtr =>
    refine ⟨st, by simp [vrfWalk], hc, rfl, fun _ _ => rfl, ?_⟩
    intro path s' i' w' hp
    cases path <;> simp [firstWalk, get?_nil, get?_nilPtr] at hp
  | .fields vs, a, c, st, hc, h, hs, hf, hpw => by
    by_cases hn : NoLeaf (Val.fields vs) ∧ NoLeaf a
    · exact vrfWalk_filled_noLeaf rank _ _ c st hc hn.1 hn.2
    obtain ⟨as, rfl⟩ : ∃ as, a = .fields as := by
      cases hs with
      | nil => exact ⟨_, rfl⟩
      | cons => exact ⟨_, rfl⟩
      | noLeaf hv ha => exact (hn ⟨hv, ha⟩).elim
    simp only [firstWalk] at hpw ⊢
    obtain ⟨st', h1, h2⟩ := vrfWalks_filled rank vs as c st hc h hs hf hpw
    exact ⟨st', by simp [vrfWalk, h1], h2⟩
  | .other, a, c, st, hc, h, hs, hf, hpw => by
    cases hs with
    | noLeaf hv ha => exact vrfWalk_filled_noLeaf rank _ _ c st hc hv ha
    | other =>
    refine ⟨st, by simp [vrfWalk], hc, rfl, fun _ _ => rfl, ?_⟩
    intro path s' i' w' hp
    cases path <;> simp [firstWalk, get?_nil, get?_other] at hp
theorem vrfWalks_filled (rank : Nat) : ∀ (vs : List (Val (ZMod p))) (as : List (Val F)) (c : Cnt)
    (st : VWalkState F), st.cnt = c.pw →
    Settable (.fields vs) → SameShape (.fields vs) (.fields as) → FullRank rank (.fields as) →
    (firstWalks vs c).2.pw ≤ st.pw.length →
    ∃ st', vrfWalks rank as st = .ok st' ∧
      VFilled c.pw (firstWalks vs c).2.pw (.fields (firstWalks vs c).1) (.fields as) st st'
  | [], as, c, st, hc, h, hs, hf, hpw => by
    cases hs with
    | noLeaf hv ha => exact vrfWalks_filled_noLeaf rank _ _ c st hc hv ha
    | nil =>
    refine ⟨st, by simp [vrfWalks], hc, rfl, fun _ _ => rfl, ?_⟩
    intro path s' i' w' hp
    cases path <;> simp [firstWalks, get?_nil, get?_fields_nil] at hp
  | v :: vs, as, c, st, hc, h, hs, hf, hpw => by
    cases hs with
    | noLeaf hv ha => exact vrfWalks_filled_noLeaf rank _ _ c st hc hv ha
    | @cons _ a' _ as' hs1 hs2 =>
    have c1 := firstWalk_compiled v c h.head
    have c2 := firstWalks_compiled vs (firstWalk v c).2.1 h.tail
    simp only [firstWalks] at hpw ⊢
    obtain ⟨st1, h1, f1⟩ := vrfWalk_filled rank v a' c st hc h.head hs1 hf.head
      (c2.le_pw.trans hpw)
    obtain ⟨st2, h2, f2⟩ := vrfWalks_filled rank vs as' _ st1 f1.cnt h.tail hs2 hf.tail
      (by rw [f1.pwl]; exact hpw)
    refine ⟨st2, by simp [vrfWalks, h1, h2], f2.cnt, f2.pwl.trans f1.pwl, ?_, ?_⟩
    · intro n hn
      have := c1.le_pw
      have := c2.le_pw
      rw [f2.framePw n (by omega), f1.framePw n (by omega)]
    · intro path s' i' w' hp
      rcases path with _ | ⟨_ | j, r⟩ <;> simp [get?_nil, get?_cons_zero, get?_cons_succ] at hp
      · obtain ⟨n, s, i, w, a1, a2, a3, a4, a5⟩ := f1.pub r s' i' w' hp
        exact ⟨n, s, i, w, a1, lt_of_lt_of_le a2 c2.le_pw, a3, by rwa [get?_cons_zero],
          by rwa [f2.framePw n (by omega)]⟩
      · obtain ⟨n, s, i, w, a1, a2, a3, a4, a5⟩ := f2.pub (j :: r) s' i' w' hp
        exact ⟨n, s, i, w, c1.le_pw.trans a1, a2, a3, by rwa [get?_cons_succ], a5⟩
end

end

end Ringo
