import Verif.Proof.JCopy

set_option linter.unnecessarySeqFocus false

/-! Where the constructors put the objects of a prover. -/

namespace Ringo
section
variable {V : Type} (O : CopyOps V)

/-- The samplers of a prover. -/
def ProverObj.samplers (p : ProverObj V) : List Nat :=
  [p.ecd.twin.base, p.ecd.cosac.base, p.ecd.cosac.rounded, p.ecd.rounded, p.uniform, p.rounded,
    p.mlwe.base]

theorem allocs_def (n : Nat) (v : V) (h : CopyHeap V) : allocs n v h =
    (h.next, ⟨h.next + n, h.draws, fun a => if h.next ≤ a ∧ a < h.next + n then v else h.mem a⟩) := rfl

theorem newUniform_def (h : CopyHeap V) : newUniform O h =
    (h.next, ⟨h.next + 1, h.draws + 1, fun a => if h.next ≤ a ∧ a < h.next + 1 then
      O.fn .seeded [O.entropy h.draws] else h.mem a⟩) := rfl

/-- The addresses of a new prover. -/
theorem newProverObj_addrs (P : CopyParams) (h : CopyHeap V) :
    let b := h.next
    let c := b + 16 + 4 * P.n
    (newProverObj O P h).1 =
      ⟨⟨⟨b + 2, O.fn (.std 3) [], b + 1⟩, ⟨b + 3, b + 4⟩, b + 5,
        ⟨P.n, P.levels, P.ringQ, b + 8, b + 7, b + 6, b + 9, b + 10, b + 11, b + 12⟩, b,
        ⟨b + 13 + P.n, b + 14 + P.n, b + 14 + 2 * P.n, b + 14 + 3 * P.n, b + 13, b + 14 + 4 * P.n,
          b + 15 + 4 * P.n⟩⟩,
        ⟨P.nOut, P.levelsOut, P.ringQOut, c + 2, c + 1, c, c + 3, c + 4, c + 5, c + 6⟩,
        c + 7, c + 8, c + 9, ⟨c + 11, O.fn (.std 5) [], c + 10⟩⟩ ∧
      (newProverObj O P h).2.next = c + 12 ∧ (newProverObj O P h).2.draws = h.draws + 7 := by
  simp only [newProverObj, newEnc, newTwin, newCosac, newRns, newEncBuf, bind, StateT.bind, pure,
    StateT.pure, allocs_def, newUniform_def, ProverObj.mk.injEq, EncObj.mk.injEq,
    TwinObj.mk.injEq, RnsObj.mk.injEq, EncBufObj.mk.injEq]
  and_intros <;> first | trivial | omega

/-- What is in memory after `NewProver`. -/
theorem newProverObj_mem (P : CopyParams) (h : CopyHeap V) :
    (∀ a < h.next, (newProverObj O P h).2.mem a = h.mem a) ∧
      (newProverObj O P h).1.samplers.map (newProverObj O P h).2.mem =
        (List.range 7).map fun k => O.fn .seeded [O.entropy (h.draws + k)] := by
  obtain ⟨ha, -, -⟩ := newProverObj_addrs O P h
  have hmem : ∀ a, (newProverObj O P h).2.mem a = (newProverObj O P h).2.mem a := fun _ => rfl
  rw [ha]
  simp only [newProverObj, newEnc, newTwin, newCosac, newRns, newEncBuf, bind, StateT.bind, pure,
    StateT.pure, allocs_def, newUniform_def, ProverObj.samplers]
  refine ⟨fun a hlt => ?_, ?_⟩
  · repeat rw [if_neg (by omega)]
  · simp only [List.map_cons, List.map_nil, List.range_succ, List.range_zero, List.nil_append,
      List.cons_append, List.cons.injEq, and_true]
    and_intros <;> (repeat first | rw [if_neg (by omega)] | rw [if_pos (by omega)]) <;> rfl

/-- The addresses of a copy. -/
theorem safeCopy_addrs (P : CopyParams) (p : ProverObj V) (h : CopyHeap V) :
    let b := h.next
    let c := b + 11 + 4 * P.n
    (p.safeCopy O P h).1 =
      ⟨⟨⟨b, p.ecd.twin.stdDev, p.ecd.twin.tables⟩, ⟨b + 1, b + 2⟩, b + 3,
        ⟨p.ecd.rns.n, p.ecd.rns.levels, p.ecd.rns.ringQ, p.ecd.rns.qHalf, p.ecd.rns.qBig,
          p.ecd.rns.gad, b + 4, b + 5, b + 6, b + 7⟩, p.ecd.deltaInv,
        ⟨b + 8 + P.n, b + 9 + P.n, b + 9 + 2 * P.n, b + 9 + 3 * P.n, b + 8, b + 9 + 4 * P.n,
          b + 10 + 4 * P.n⟩⟩,
        ⟨p.rnsOut.n, p.rnsOut.levels, p.rnsOut.ringQ, p.rnsOut.qHalf, p.rnsOut.qBig, p.rnsOut.gad,
          c, c + 1, c + 2, c + 3⟩,
        p.ck, c + 4, c + 5, ⟨c + 7, O.fn (.std 5) [], c + 6⟩⟩ ∧
      (p.safeCopy O P h).2.next = c + 8 ∧ (p.safeCopy O P h).2.draws = h.draws + 7 := by
  simp only [ProverObj.safeCopy, EncObj.safeCopy, TwinObj.safeCopy, RnsObj.safeCopy, newTwin,
    newCosac, newEncBuf, bind, StateT.bind, pure, StateT.pure, allocs_def, newUniform_def,
    ProverObj.mk.injEq, EncObj.mk.injEq, TwinObj.mk.injEq, RnsObj.mk.injEq, EncBufObj.mk.injEq]
  and_intros <;> first | trivial | omega

/-- What is in memory after `SafeCopy`. -/
theorem safeCopy_mem (P : CopyParams) (p : ProverObj V) (h : CopyHeap V) :
    (∀ a < h.next, (p.safeCopy O P h).2.mem a = h.mem a) ∧
      (p.safeCopy O P h).1.samplers.map (p.safeCopy O P h).2.mem =
        (List.range 7).map fun k => O.fn .seeded [O.entropy (h.draws + k)] := by
  obtain ⟨ha, -, -⟩ := safeCopy_addrs O P p h
  rw [ha]
  simp only [ProverObj.safeCopy, EncObj.safeCopy, TwinObj.safeCopy, RnsObj.safeCopy, newTwin,
    newCosac, newEncBuf, bind, StateT.bind, pure, StateT.pure, allocs_def, newUniform_def,
    ProverObj.samplers]
  refine ⟨fun a hlt => ?_, ?_⟩
  · repeat rw [if_neg (by omega)]
  · simp only [List.map_cons, List.map_nil, List.range_succ, List.range_zero, List.nil_append,
      List.cons_append, List.cons.injEq, and_true]
    and_intros <;> (repeat first | rw [if_neg (by omega)] | rw [if_pos (by omega)]) <;> rfl

/-- What holds of the provers made so far; `b` is where the first began. -/
structure ProversOk (P : CopyParams) (b d : Nat) (ps : List (ProverObj V)) (h : CopyHeap V) : Prop where
  low : b ≤ h.next
  bounds : ∀ p ∈ ps, ∀ a, p.Own P a ∨ p.Ro a → b ≤ a ∧ a < h.next
  disj : ps.Pairwise fun p p' => ∀ a, p.Own P a → ¬ p'.Own P a
  ro : ∀ p ∈ ps, ∀ p' ∈ ps, ∀ a, p.Own P a → ¬ p'.Ro a
  rings : ∀ p ∈ ps, p.ecd.rns.ringQ = P.ringQ ∧ p.rnsOut.ringQ = P.ringQOut
  draws : h.draws = d + 7 * ps.length
  seeds : (ps.flatMap ProverObj.samplers).map h.mem =
    (List.range (7 * ps.length)).map fun k => O.fn .seeded [O.entropy (d + k)]
  nodup : (ps.flatMap ProverObj.samplers).Nodup

theorem samplers_own {P : CopyParams} {p : ProverObj V} {a : Nat} (h : a ∈ p.samplers) : p.Own P a := by
  simpa [ProverObj.samplers, ProverObj.Own] using Or.inl h

theorem newProverObj_ok (P : CopyParams) (h : CopyHeap V) :
    ProversOk O P h.next h.draws [(newProverObj O P h).1] (newProverObj O P h).2 := by
  obtain ⟨ha, hn, hd⟩ := newProverObj_addrs O P h
  obtain ⟨-, hm⟩ := newProverObj_mem O P h
  refine ⟨by omega, ?_, by simp, ?_, ?_, by simpa using hd, ?_, ?_⟩
  · intro p hp a
    rw [List.mem_singleton] at hp
    subst hp
    rw [hn, ha]
    simp only [ProverObj.Own, ProverObj.Ro]
    omega
  · intro p hp p' hp' a
    rw [List.mem_singleton] at hp hp'
    subst hp hp'
    rw [ha]
    simp only [ProverObj.Own, ProverObj.Ro]
    omega
  · intro p hp
    rw [List.mem_singleton] at hp
    subst hp
    rw [ha]
    exact ⟨rfl, rfl⟩
  · simpa using hm
  · rw [ha]
    simp only [ProverObj.samplers, List.flatMap_cons, List.flatMap_nil, List.append_nil,
      List.nodup_cons, List.mem_cons, List.not_mem_nil, or_false, not_or, List.nodup_nil, and_true,
      not_false_eq_true]
    omega

theorem ProversOk.copy {P : CopyParams} {b d : Nat} {ps : List (ProverObj V)} {h : CopyHeap V}
    (k : ProversOk O P b d ps h) {p : ProverObj V} (hp : p ∈ ps) :
    ProversOk O P b d (ps ++ [(p.safeCopy O P h).1]) (p.safeCopy O P h).2 := by
  obtain ⟨ha, hn, hd⟩ := safeCopy_addrs O P p h
  obtain ⟨hm1, hm2⟩ := safeCopy_mem O P p h
  have hown : ∀ a, (p.safeCopy O P h).1.Own P a → h.next ≤ a ∧ a < (p.safeCopy O P h).2.next := by
    intro a
    rw [hn, ha]
    simp only [ProverObj.Own]
    omega
  have hro : ∀ a, (p.safeCopy O P h).1.Ro a →
      p.Ro a ∨ h.next ≤ a ∧ a < (p.safeCopy O P h).2.next := by
    intro a h2
    rw [ha] at h2
    rw [hn]
    simp only [ProverObj.Ro] at h2 ⊢
    rcases h2 with e | e | e | e | e | e | e | e | e | e <;> simp [e]
    omega
  have hself : ∀ a, (p.safeCopy O P h).1.Own P a → (p.safeCopy O P h).1.Ro a → h.next ≤ a → p.Ro a := by
    intro a h1 h2 _
    have h3 : p.Ro a ∨ a = h.next + 11 + 4 * P.n + 6 := by
      rw [ha] at h2
      simp only [ProverObj.Ro] at h2 ⊢
      rcases h2 with e | e | e | e | e | e | e | e | e | e <;> simp [e]
    have h4 : a ≠ h.next + 11 + 4 * P.n + 6 := by
      rw [ha] at h1
      simp only [ProverObj.Own] at h1
      clear h2 h3
      omega
    exact h3.resolve_right h4
  have hnext : h.next ≤ (p.safeCopy O P h).2.next := by omega
  refine ⟨by have := k.low; omega, ?_, ?_, ?_, ?_, ?_, ?_, ?_⟩
  · intro p' hp' a hx
    rw [List.mem_append, List.mem_singleton] at hp'
    rcases hp' with hp' | rfl
    · obtain ⟨h1, h2⟩ := k.bounds p' hp' a hx
      exact ⟨h1, by omega⟩
    · have := k.low
      rcases hx with hx | hx
      · have := hown a hx
        omega
      · rcases hro a hx with hx | hx
        · obtain ⟨h1, h2⟩ := k.bounds p hp a (Or.inr hx)
          exact ⟨h1, by omega⟩
        · omega
  · rw [List.pairwise_append]
    refine ⟨k.disj, by simp, ?_⟩
    intro p' hp' q hq a h1 h2
    rw [List.mem_singleton] at hq
    subst hq
    have h3 := k.bounds p' hp' a (Or.inl h1)
    have h4 := hown a h2
    omega
  · intro p' hp' q hq a h1 h2
    rw [List.mem_append, List.mem_singleton] at hp' hq
    rcases hp' with hp' | rfl <;> rcases hq with hq | rfl
    · exact k.ro p' hp' q hq a h1 h2
    · have h3 := k.bounds p' hp' a (Or.inl h1)
      rcases hro a h2 with h2 | h2
      · exact k.ro p' hp' p hp a h1 h2
      · omega
    · have h3 := k.bounds q hq a (Or.inr h2)
      have h4 := hown a h1
      omega
    · have h4 := hown a h1
      have h5 := k.bounds p hp a (Or.inr (hself a h1 h2 h4.1))
      omega
  · intro p' hp'
    rw [List.mem_append, List.mem_singleton] at hp'
    rcases hp' with hp' | rfl
    · exact k.rings p' hp'
    · rw [ha]
      exact k.rings p hp
  · rw [hd, k.draws]
    simp only [List.length_append, List.length_singleton]
    omega
  · rw [List.flatMap_append, List.map_append]
    have hold : (ps.flatMap ProverObj.samplers).map (p.safeCopy O P h).2.mem =
        (ps.flatMap ProverObj.samplers).map h.mem := by
      refine List.map_congr_left fun a hx => hm1 a ?_
      obtain ⟨p', hp', hx⟩ := List.mem_flatMap.1 hx
      exact (k.bounds p' hp' a (Or.inl (samplers_own hx))).2
    rw [hold, k.seeds, List.flatMap_singleton, hm2, k.draws]
    have e : 7 * (ps ++ [(p.safeCopy O P h).1]).length = 7 * ps.length + 7 := by
      simp only [List.length_append, List.length_singleton]
      omega
    rw [e, List.range_add, List.map_append]
    simp only [List.map_map, Function.comp_def, Nat.add_assoc]
  · rw [List.flatMap_append, List.nodup_append]
    refine ⟨k.nodup, ?_, ?_⟩
    · rw [ha]
      simp only [ProverObj.samplers, List.flatMap_cons, List.flatMap_nil, List.append_nil,
        List.nodup_cons, List.mem_cons, List.not_mem_nil, or_false, not_or, List.nodup_nil, and_true,
        not_false_eq_true]
      omega
    · intro a hx c hy e
      subst e
      obtain ⟨p', hp', hx⟩ := List.mem_flatMap.1 hx
      rw [List.flatMap_singleton] at hy
      have h3 := k.bounds p' hp' a (Or.inl (samplers_own hx))
      have h4 := hown a (samplers_own hy)
      omega

theorem makeProvers_ok {P : CopyParams} {b d : Nat} (p₀ : ProverObj V) (cs : List Nat) :
    ∀ (ps : List (ProverObj V)) (h : CopyHeap V), p₀ ∈ ps → ProversOk O P b d ps h →
      ProversOk O P b d (makeProvers O P p₀ cs ps h).1 (makeProvers O P p₀ cs ps h).2 ∧
      (makeProvers O P p₀ cs ps h).1.length = ps.length + cs.length := by
  induction cs with
  | nil => intro ps h _ k; exact ⟨k, rfl⟩
  | cons c cs ih =>
    intro ps h hp k
    have hc : ps.getD c p₀ ∈ ps := by
      rw [List.getD_eq_getElem?_getD]
      cases e : ps[c]? with
      | none => simpa using hp
      | some x => simpa using List.mem_of_getElem? e
    have hk := k.copy O hc
    obtain ⟨h1, h2⟩ := ih (ps ++ [((ps.getD c p₀).safeCopy O P h).1]) ((ps.getD c p₀).safeCopy O P h).2
      (by simp [hp]) hk
    refine ⟨h1, h2.trans ?_⟩
    simp only [List.length_append, List.length_cons, List.length_nil]
    omega

end
end Ringo
