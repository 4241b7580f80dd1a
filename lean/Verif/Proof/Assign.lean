import Verif.Proof.Walk
import Verif.Proof.Honest
import Verif.Proof.Context2

/-!
# The slots after the walk
-/

namespace Ringo

section
variable {F : Type}

/-- Invariant of the prover's walk. -/
structure WalkInv (rank m n : Nat) (st : WalkState F) : Prop where
  pl : st.pw.length = m
  sl : st.sw.length = n
  pc : st.cnt.pw ≤ m
  sc : st.cnt.w ≤ n
  pr : ∀ (i : Nat) (v : List F), i < st.cnt.pw → st.pw[i]? = some v → v.length = rank
  sr : ∀ (i : Nat) (v : List F), i < st.cnt.w → st.sw[i]? = some v → v.length = rank

theorem setIdx_inv {α : Type} {l l' : List α} {i : Nat} {x : α} (h : setIdx l i x = .ok l') :
    i < l.length ∧ l' = l.set i x := by
  by_cases hi : i < l.length
  · rw [setIdx_ok hi] at h; injection h with h; exact ⟨hi, h.symm⟩
  · rw [setIdx, if_neg hi] at h; cases h

mutual
theorem prvWalk_inv {rank m n : Nat} : ∀ (a : Val F) (st st' : WalkState F) (e : Bool),
    WalkInv rank m n st → prvWalk rank a st = .ok (st', e) → WalkInv rank m n st'
  | .pub s i w, st, st', e, hi, h => by
    unfold prvWalk at h
    cases i with
    | false => cases h
    | true =>
    obtain ⟨pw, hpw, h⟩ := bind_ok_inv h
    obtain ⟨h1, rfl⟩ := setIdx_inv hpw
    by_cases hw : w.length ≠ rank
    · rw [if_pos hw] at h
      injection h with h
      simp only [Prod.mk.injEq] at h
      obtain ⟨rfl, -⟩ := h
      refine ⟨by simpa using hi.pl, hi.sl, hi.pc, hi.sc, ?_, hi.sr⟩
      intro j v hj hv
      simp only at hj hv
      rw [List.getElem?_set_ne (by omega)] at hv
      exact hi.pr j v hj hv
    · rw [if_neg hw] at h
      injection h with h
      simp only [Prod.mk.injEq] at h
      obtain ⟨rfl, -⟩ := h
      have hpl := hi.pl
      refine ⟨by simpa using hi.pl, hi.sl, by simp only; omega, hi.sc, ?_, hi.sr⟩
      intro j v hj hv
      simp only at hj hv
      by_cases hjc : st.cnt.pw = j
      · subst hjc
        rw [List.getElem?_set_self h1] at hv
        injection hv with hv
        rw [← hv]; exact not_not.1 hw
      · rw [List.getElem?_set_ne hjc] at hv
        exact hi.pr j v (by omega) hv
  | .wit s i w, st, st', e, hi, h => by
    unfold prvWalk at h
    cases i with
    | false => cases h
    | true =>
    obtain ⟨pw, hpw, h⟩ := bind_ok_inv h
    obtain ⟨h1, rfl⟩ := setIdx_inv hpw
    by_cases hw : w.length ≠ rank
    · rw [if_pos hw] at h
      injection h with h
      simp only [Prod.mk.injEq] at h
      obtain ⟨rfl, -⟩ := h
      refine ⟨hi.pl, by simpa using hi.sl, hi.pc, hi.sc, hi.pr, ?_⟩
      intro j v hj hv
      simp only at hj hv
      rw [List.getElem?_set_ne (by omega)] at hv
      exact hi.sr j v hj hv
    · rw [if_neg hw] at h
      injection h with h
      simp only [Prod.mk.injEq] at h
      obtain ⟨rfl, -⟩ := h
      have hsl := hi.sl
      refine ⟨hi.pl, by simpa using hi.sl, hi.pc, by simp only; omega, hi.pr, ?_⟩
      intro j v hj hv
      simp only at hj hv
      by_cases hjc : st.cnt.w = j
      · subst hjc
        rw [List.getElem?_set_self h1] at hv
        injection hv with hv
        rw [← hv]; exact not_not.1 hw
      · rw [List.getElem?_set_ne hjc] at hv
        exact hi.sr j v (by omega) hv
  | .ptr v, st, st', e, hi, h => by
    unfold prvWalk at h
    obtain ⟨r, hr, h⟩ := bind_ok_inv h
    injection h with h
    simp only [Prod.mk.injEq] at h
    rw [← h.1]
    exact prvWalk_inv v st r.1 r.2 hi hr
  | .nilPtr, st, st', e, hi, h => by
    unfold prvWalk at h
    injection h with h
    simp only [Prod.mk.injEq] at h
    rw [← h.1]; exact hi
  | .fields vs, st, st', e, hi, h => by
    unfold prvWalk at h
    obtain ⟨r, hr, h⟩ := bind_ok_inv h
    injection h with h
    simp only [Prod.mk.injEq] at h
    rw [← h.1]
    exact prvWalks_inv vs st r hi hr
  | .other, st, st', e, hi, h => by
    unfold prvWalk at h
    injection h with h
    simp only [Prod.mk.injEq] at h
    rw [← h.1]; exact hi
theorem prvWalks_inv {rank m n : Nat} : ∀ (as : List (Val F)) (st st' : WalkState F),
    WalkInv rank m n st → prvWalks rank as st = .ok st' → WalkInv rank m n st'
  | [], st, st', hi, h => by
    unfold prvWalks at h
    injection h with h
    rw [← h]; exact hi
  | a :: as, st, st', hi, h => by
    unfold prvWalks at h
    obtain ⟨r, hr, h⟩ := bind_ok_inv h
    exact prvWalks_inv as _ _ (prvWalk_inv a st r.1 r.2 hi hr) h
end

end

section
variable {p : Nat} [Fact p.Prime]

theorem take_shape {rank n k : Nat} (l : List (List (ZMod p))) (hl : l.length = n) (hk : k ≤ n)
    (h : ∀ (i : Nat) (v : List (ZMod p)), i < k → l[i]? = some v → v.length = rank) :
    Shape n rank (l.take k ++ List.replicate (n - k) (List.replicate rank (0 : ZMod p))) := by
  refine ⟨by simp; omega, fun v hv => ?_⟩
  rcases List.mem_append.1 hv with hv | hv
  · obtain ⟨i, hi, rfl⟩ := List.getElem_of_mem hv
    rw [List.length_take] at hi
    refine h i _ (by omega) ?_
    rw [List.getElem_take, List.getElem?_eq_getElem]
  · rw [(List.mem_replicate.1 hv).2]; simp

/-- If the walk reports no error, every slot holds a vector of the compiled rank. -/
theorem prvCollect_shape {rank m n : Nat} {a : Val (ZMod p)} {pw sw : List (List (ZMod p))}
    (h : prvCollect rank m n a = .ok (pw, sw, false)) : Shape m rank pw ∧ Shape n rank sw := by
  unfold prvCollect at h
  obtain ⟨⟨st, e⟩, h1, h⟩ := bind_ok_inv h
  have hi := prvWalk_inv (m := m) (n := n) a _ _ _ (⟨by simp, by simp, by simp, by simp, by simp, by simp⟩) h1
  cases e with
  | true => injection h with h; simp at h
  | false =>
    injection h with h
    simp only [Prod.mk.injEq] at h
    obtain ⟨rfl, rfl, -⟩ := h
    exact ⟨take_shape _ hi.pl hi.pc hi.pr, take_shape _ hi.sl hi.sc hi.sr⟩

/-- A property kept by every step holds at the end. -/
theorem foldlM_pres {σ α : Type} {f : σ → α → Go σ} (P : σ → Prop)
    (hf : ∀ s a s', P s → f s a = .ok s' → P s') :
    ∀ (l : List α) (s s' : σ), P s → l.foldlM f s = .ok s' → P s'
  | [], s, s', hs, h => by injection h with h; rw [← h]; exact hs
  | a :: l, s, s', hs, h => by
    rw [List.foldlM_cons] at h
    obtain ⟨s1, h1, h⟩ := bind_ok_inv h
    exact foldlM_pres P hf l s1 s' (hf s a s1 hs h1) h

theorem set2_shape {n N : Nat} {t t' : List (List (ZMod p))} {a i : Nat} {x : ZMod p}
    (ht : Shape n N t) (h : set2 t a i x = .ok t') : Shape n N t' := by
  unfold set2 at h
  obtain ⟨row, h1, h⟩ := bind_ok_inv h
  obtain ⟨row', h2, h⟩ := bind_ok_inv h
  obtain ⟨h3, rfl⟩ := setIdx_inv h2
  obtain ⟨h4, rfl⟩ := setIdx_inv h
  refine ⟨by simpa using ht.1, fun v hv => ?_⟩
  rcases List.mem_or_eq_of_mem_set hv with hv | rfl
  · exact ht.2 v hv
  · rw [List.length_set]
    exact ht.2 row (List.mem_of_getElem? (idx_ok_iff.1 h1))

theorem fillInf_shape {n N : Nat} {order : List InfEntry} {sw sw' : List (List (ZMod p))}
    (hs : Shape n N sw) (h : fillInf N order sw = .ok sw') : Shape n N sw' := by
  unfold fillInf at h
  refine foldlM_pres (Shape n N) ?_ _ _ _ hs h
  intro s e s' hs h
  obtain ⟨base, -, h⟩ := bind_ok_inv h
  rw [forRange_one] at h
  refine foldlM_pres (Shape n N) ?_ _ _ _ hs h
  intro s i s' hs h
  obtain ⟨x, -, h⟩ := bind_ok_inv h
  refine foldlM_pres (Shape n N) ?_ _ _ _ hs h
  intro s i s' hs h
  obtain ⟨d, -, h⟩ := bind_ok_inv h
  exact set2_shape hs h

theorem fillTwoPub_shape {n N : Nat} {e : TwoEntry} {pw pw' : List (List (ZMod p))}
    (hs : Shape n N pw) (h : fillTwoPub e pw = .ok pw') : Shape n N pw' := by
  unfold fillTwoPub at h
  obtain ⟨base, -, h⟩ := bind_ok_inv h
  rw [forRange_one] at h
  refine foldlM_pres (Shape n N) ?_ _ _ _ hs h
  intro s i s' hs h
  obtain ⟨b, -, h⟩ := bind_ok_inv h
  obtain ⟨s1, h1, h⟩ := bind_ok_inv h
  exact set2_shape (set2_shape hs h1) h

theorem fillTwo_shape {m n N : Nat} {order : List TwoEntry}
    {s s' : List (List (ZMod p)) × List (List (ZMod p))}
    (hp : Shape m N s.1) (hs : Shape n N s.2) (h : fillTwo N order s = .ok s') :
    Shape m N s'.1 ∧ Shape n N s'.2 := by
  unfold fillTwo at h
  obtain ⟨r, h1, h⟩ := bind_ok_inv h
  injection h with h
  subst h
  refine foldlM_pres (fun r : List (List (ZMod p)) × List (List (ZMod p)) × Nat =>
    Shape m N r.1 ∧ Shape n N r.2.1) ?_ _ _ _ ⟨hp, hs⟩ h1
  intro s e s' hs h
  obtain ⟨base, -, h⟩ := bind_ok_inv h
  obtain ⟨pw, h2, h⟩ := bind_ok_inv h
  obtain ⟨sq, -, h⟩ := bind_ok_inv h
  obtain ⟨sw, h3, h⟩ := bind_ok_inv h
  injection h with h
  subst h
  refine ⟨fillTwoPub_shape hs.1 h2, ?_⟩
  simp only
  rw [forRange_one] at h3
  refine foldlM_pres (Shape n N) ?_ _ _ _ hs.2 h3
  intro s i s' hs h
  obtain ⟨d, -, h⟩ := bind_ok_inv h
  exact set2_shape hs h

theorem assign_inv {cp : Compilation (ZMod p)} {ord : Orders} {c : Val (ZMod p)}
    {pw sw : List (List (ZMod p))} (h : assign cp ord c = .ok (some (pw, sw))) :
    ∃ pw0 sw0 s1, prvCollect cp.ctx.rank cp.ctx.pwCnt cp.ctx.wCnt c = .ok (pw0, sw0, false) ∧
      fillInf cp.ctx.rank ord.inf sw0 = .ok s1 ∧ fillTwo cp.ctx.rank ord.two (pw0, s1) = .ok (pw, sw) ∧
      Shape cp.ctx.pwCnt cp.ctx.rank pw ∧ Shape cp.ctx.wCnt cp.ctx.rank sw := by
  unfold assign at h
  obtain ⟨⟨pw0, sw0, e⟩, h1, h⟩ := bind_ok_inv h
  cases e with
  | true => injection h with h; cases h
  | false =>
    obtain ⟨s1, h2, h⟩ := bind_ok_inv h
    obtain ⟨r, h3, h⟩ := bind_ok_inv h
    injection h with h
    injection h with h
    subst h
    obtain ⟨q1, q2⟩ := prvCollect_shape h1
    exact ⟨pw0, sw0, s1, h1, h2, h3, fillTwo_shape q1 (fillInf_shape q2 h2) h3⟩

theorem proveT_inv {E : Env (ZMod p)} {cp : Compilation (ZMod p)} {t : Tape (ZMod p) E.pcs.Rnd}
    {ord : Orders} {c : Circ (ZMod p)} {r : BProof (ZMod p) E.pcs × List Bytes}
    (h : proveT E cp t ord c = .ok (some r)) :
    c.ty = cp.ctx.circType ∧ ∃ pw sw pwNTT s, assign cp ord c.val = .ok (some (pw, sw)) ∧
      encodePub cp pw = .ok pwNTT ∧ proveRounds E cp t ord sw = .ok (some s) ∧
      proveChecks E cp t pwNTT s = .ok (some r) := by
  unfold proveT at h
  by_cases hty : c.ty ≠ cp.ctx.circType
  · rw [if_pos hty] at h; injection h with h; cases h
  · rw [if_neg hty] at h
    obtain ⟨a, h1, h⟩ := bind_ok_inv h
    cases a with
    | none => injection h with h; cases h
    | some a =>
      obtain ⟨pw, sw⟩ := a
      obtain ⟨pwNTT, h2, h⟩ := bind_ok_inv h
      obtain ⟨b, h3, h⟩ := bind_ok_inv h
      cases b with
      | none => injection h with h; cases h
      | some s => exact ⟨not_not.1 hty, pw, sw, pwNTT, s, h1, h2, h3, h⟩

end

end Ringo
