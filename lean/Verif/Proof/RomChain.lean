import Verif.Proof.Rom
import Verif.Spec.FiatShamir
import Mathlib.Data.List.Flatten

/-!
# Chains of hash values
-/

namespace Ringo

open Finset

section
variable {n H : Nat}

/-- What is known of the hash value of a string. -/
def RTable.get (τ : RTable (Query n) (Digest H)) (b : Bytes) : Option (Digest H) :=
  if hb : b.length ≤ n then τ ⟨b, hb⟩ else none

theorem RTable.get_some {τ : RTable (Query n) (Digest H)} {b : Bytes} {d : Digest H} (h : τ.get b = some d) :
    ∃ hb : b.length ≤ n, τ ⟨b, hb⟩ = some d := by
  unfold RTable.get at h
  split at h
  · exact ⟨_, h⟩
  · cases h

/-- The input of round `j`: the name, the challenge before, the messages. -/
def chainIn (R : List (Bytes × List Bytes)) (c : Nat → Digest H) (j : Nat) : Bytes :=
  (R.getD j ([], [])).1 ++ (if j = 0 then [] else List.ofFn (c (j - 1))) ++ (R.getD j ([], [])).2.flatten

/-- The challenges of the first `k` rounds are known. -/
def RTable.Chain (τ : RTable (Query n) (Digest H)) (R : List (Bytes × List Bytes)) (c : Nat → Digest H) (k : Nat) : Prop :=
  ∀ j < k, τ.get (chainIn R c j) = some (c j)

/-- Different calls have different results. -/
def RTable.Inj (τ : RTable (Query n) (Digest H)) : Prop := ∀ q q' d, τ q = some d → τ q' = some d → q = q'

/-- Rounds with the given names, whose messages have the given lengths. -/
structure RShape (names : List Bytes) (lens : List (List Nat)) (R : List (Bytes × List Bytes)) : Prop where
  names : R.map Prod.fst = names
  lens : R.map (fun r => r.2.map List.length) = lens

theorem RShape.get {names : List Bytes} {lens : List (List Nat)} {R R' : List (Bytes × List Bytes)}
    (h : RShape names lens R) (h' : RShape names lens R') (j : Nat) :
    (R.getD j ([], [])).1 = (R'.getD j ([], [])).1 ∧
    (R.getD j ([], [])).2.map List.length = (R'.getD j ([], [])).2.map List.length := by
  have h1 := congrArg (fun l => l[j]?) (h.names.trans h'.names.symm)
  have h2 := congrArg (fun l => l[j]?) (h.lens.trans h'.lens.symm)
  simp only [List.getElem?_map] at h1 h2
  rw [List.getD_eq_getElem?_getD, List.getD_eq_getElem?_getD]
  cases e : R[j]? with
  | none =>
    cases e' : R'[j]? with
    | none => exact ⟨rfl, rfl⟩
    | some r => rw [e, e'] at h1; simp at h1
  | some r =>
    cases e' : R'[j]? with
    | none => rw [e, e'] at h1; simp at h1
    | some r' =>
      rw [e, e'] at h1 h2
      simp only [Option.map_some, Option.some.injEq] at h1 h2
      exact ⟨h1, h2⟩

theorem RShape.name {names : List Bytes} {lens : List (List Nat)} {R : List (Bytes × List Bytes)}
    (h : RShape names lens R) (j : Nat) : (R.getD j ([], [])).1 = names.getD j [] := by
  rw [← h.names, List.getD_eq_getElem?_getD, List.getD_eq_getElem?_getD, List.getElem?_map]
  cases R[j]? <;> rfl

/-- Different names can be told apart at the beginning of a string. -/
def NamesApart (names : List Bytes) : Prop :=
  ∀ i < names.length, ∀ j < names.length, ∀ a b : Bytes,
    names.getD i [] ++ a = names.getD j [] ++ b → i = j

theorem ofFn_digest_inj {d d' : Digest H} (h : List.ofFn d = List.ofFn d') : d = d' := List.ofFn_injective h

/-- Equal inputs come from equal previous challenges and equal messages. -/
theorem chainIn_inj {names : List Bytes} {lens : List (List Nat)} {R R' : List (Bytes × List Bytes)}
    (h : RShape names lens R) (h' : RShape names lens R') {c c' : Nat → Digest H} {j : Nat}
    (he : chainIn R c j = chainIn R' c' j) :
    (j ≠ 0 → c (j - 1) = c' (j - 1)) ∧ R[j]? = R'[j]? := by
  obtain ⟨g1, g2⟩ := h.get h' j
  unfold chainIn at he
  rw [g1, List.append_assoc, List.append_assoc, List.append_cancel_left_eq] at he
  obtain ⟨e1, e2⟩ := List.append_inj he (by split <;> simp)
  refine ⟨fun hj => ?_, ?_⟩
  · rw [if_neg hj, if_neg hj] at e1
    exact ofFn_digest_inj e1
  · have e3 : (R.getD j ([], [])).2 = (R'.getD j ([], [])).2 := List.eq_iff_flatten_eq.2 ⟨e2, g2⟩
    have hl : R.length = R'.length := by
      have := congrArg List.length (h.names.trans h'.names.symm)
      simpa using this
    rw [List.getD_eq_getElem?_getD, List.getD_eq_getElem?_getD] at g1 e3
    by_cases hj : j < R.length
    · rw [List.getElem?_eq_getElem hj, List.getElem?_eq_getElem (by omega)] at g1 e3 ⊢
      exact congrArg some (Prod.ext g1 e3)
    · rw [List.getElem?_eq_none (by omega), List.getElem?_eq_none (by omega)]

/-- If different calls have different results, an input whose chain is known determines the chain and all
messages. -/
theorem chain_unique {names : List Bytes} {lens : List (List Nat)} {R R' : List (Bytes × List Bytes)}
    (h : RShape names lens R) (h' : RShape names lens R') {τ : RTable (Query n) (Digest H)} (hτ : τ.Inj) {c c' : Nat → Digest H} :
    ∀ j, τ.Chain R c j → τ.Chain R' c' j → chainIn R c j = chainIn R' c' j →
      R.take (j + 1) = R'.take (j + 1) ∧ ∀ i < j, c i = c' i := by
  intro j
  induction j with
  | zero =>
    intro _ _ he
    have := (chainIn_inj h h' he).2
    refine ⟨?_, fun i hi => absurd hi (Nat.not_lt_zero i)⟩
    rw [List.take_add_one, List.take_add_one, this]
    rfl
  | succ j ih =>
    intro k1 k2 he
    obtain ⟨e1, e2⟩ := chainIn_inj h h' he
    have e1 := e1 (Nat.succ_ne_zero j)
    rw [Nat.add_sub_cancel] at e1
    obtain ⟨b1, l1⟩ := RTable.get_some (k1 j (Nat.lt_succ_self j))
    obtain ⟨b2, l2⟩ := RTable.get_some (k2 j (Nat.lt_succ_self j))
    rw [← e1] at l2
    have e3 := congrArg Subtype.val (hτ _ _ _ l1 l2)
    obtain ⟨i1, i2⟩ := ih (fun i hi => k1 i (by omega)) (fun i hi => k2 i (by omega)) e3
    refine ⟨?_, fun i hi => ?_⟩
    · rw [List.take_add_one, List.take_add_one (i := j + 1), i1, e2]
    · rcases Nat.lt_succ_iff_lt_or_eq.1 hi with h3 | rfl
      · exact i2 i h3
      · exact e1

variable {Prf : Type} (rounds : Prf → List (Bytes × List Bytes)) (exc : Prf → (Nat → Digest H) → Nat → Finset (Digest H))

/-- The challenge that a string, an input of a later round, contains. -/
def PrevIs (names : List Bytes) (b : Bytes) (d : Digest H) : Prop :=
  ∃ j < names.length, ∃ rest, b = names.getD j [] ++ List.ofFn d ++ rest

theorem PrevIs.unique {names : List Bytes} (hn : NamesApart names) {b : Bytes} {d d' : Digest H}
    (h : PrevIs names b d) (h' : PrevIs names b d') : d = d' := by
  obtain ⟨j, hj, r, rfl⟩ := h
  obtain ⟨j', hj', r', e⟩ := h'
  rw [List.append_assoc, List.append_assoc] at e
  have := hn j hj j' hj' _ _ e
  subst this
  rw [List.append_cancel_left_eq] at e
  exact ofFn_digest_inj (List.append_inj e (by simp)).1

open Classical in
/-- The bad results of a new call: those of another call; the challenges that a call already made
contains; and the bad challenges for the messages before. -/
noncomputable def badResults (names : List Bytes) (τ : RTable (Query n) (Digest H)) (q : Query n) : Finset (Digest H) :=
  (univ.filter (fun d => ∃ q', τ q' = some d) ∪ univ.filter (fun d => ∃ q', τ q' ≠ none ∧ PrevIs names q'.1 d)) ∪
  (if h : ∃ x : Prf × (Nat → Digest H) × Nat, x.2.2 < names.length ∧
      τ.Chain (rounds x.1) x.2.1 x.2.2 ∧ chainIn (rounds x.1) x.2.1 x.2.2 = q.1
    then exc h.choose.1 h.choose.2.1 h.choose.2.2 else ∅)

theorem badResults_card {names : List Bytes} (hn : NamesApart names) {e : Nat}
    (he : ∀ π c j, (exc π c j).card ≤ e) (τ : RTable (Query n) (Digest H)) (q : Query n) :
    (badResults rounds exc names τ q).card ≤ 2 * τ.dom.card + e := by
  classical
  unfold badResults
  refine (card_union_le _ _).trans (Nat.add_le_add ((card_union_le _ _).trans ?_) ?_)
  · rw [two_mul]
    refine Nat.add_le_add ?_ ?_
    · refine (card_le_card (t := τ.dom.image (fun q => (τ q).getD 0)) ?_).trans card_image_le
      intro d hd
      obtain ⟨q', hq'⟩ := (mem_filter.1 hd).2
      exact mem_image.2 ⟨q', RTable.mem_dom.2 (by rw [hq']; simp), by rw [hq']; rfl⟩
    · refine (card_le_card (t := τ.dom.image (fun q =>
        if h : ∃ d : Digest H, PrevIs names q.1 d then h.choose else 0)) ?_).trans card_image_le
      intro d hd
      obtain ⟨q', hq', hp⟩ := (mem_filter.1 hd).2
      refine mem_image.2 ⟨q', RTable.mem_dom.2 hq', ?_⟩
      have hex : ∃ d : Digest H, PrevIs names q'.1 d := ⟨d, hp⟩
      rw [dif_pos hex]
      exact PrevIs.unique hn hex.choose_spec hp
  · split
    · exact he _ _ _
    · simp

/-- Different calls have different results, and no known chain has a bad challenge. -/
def RTable.Fine (names : List Bytes) (τ : RTable (Query n) (Digest H)) : Prop :=
  τ.Inj ∧ ∀ π c j, j < names.length → τ.Chain (rounds π) c (j + 1) → c j ∉ exc π c j

theorem RTable.get_add (τ : RTable (Query n) (Digest H)) (q : Query n) (d : Digest H) (b : Bytes) :
    (τ.add q d).get b = if b = q.1 then some d else τ.get b := by
  unfold RTable.get
  by_cases hb : b = q.1
  · subst hb
    rw [dif_pos q.2, if_pos rfl]
    exact τ.add_same q d
  · rw [if_neg hb]
    split
    · exact τ.add_other d (fun h => hb (congrArg Subtype.val h))
    · rfl

theorem RTable.Fine.add {names : List Bytes} {lens : List (List Nat)} (hn : NamesApart names)
    (hs : ∀ π, RShape names lens (rounds π))
    (hloc : ∀ π π' c c' j, j < names.length → (rounds π).take (j + 1) = (rounds π').take (j + 1) →
      (∀ i < j, c i = c' i) → exc π c j = exc π' c' j)
    {τ : RTable (Query n) (Digest H)} (h : τ.Fine rounds exc names) {q : Query n} {d : Digest H} (hq : τ q = none)
    (hd : d ∉ badResults rounds exc names τ q) : (τ.add q d).Fine rounds exc names := by
  classical
  unfold badResults at hd
  rw [mem_union, mem_union, not_or, not_or, mem_filter, mem_filter] at hd
  obtain ⟨⟨hd1, hd2⟩, hd3⟩ := hd
  have hd1 : ∀ q', τ q' ≠ some d := fun q' h => hd1 ⟨mem_univ _, q', h⟩
  have hd2 : ∀ q', τ q' ≠ none → ¬ PrevIs names q'.1 d := fun q' h h' => hd2 ⟨mem_univ _, q', h, h'⟩
  obtain ⟨hinj, hfine⟩ := h
  refine ⟨?_, ?_⟩
  · intro q1 q2 d' h1 h2
    by_cases e1 : q1 = q
    · by_cases e2 : q2 = q
      · rw [e1, e2]
      · subst e1
        rw [τ.add_same] at h1
        cases h1
        rw [τ.add_other d e2] at h2
        exact absurd h2 (hd1 q2)
    · by_cases e2 : q2 = q
      · subst e2
        rw [τ.add_same] at h2
        cases h2
        rw [τ.add_other d e1] at h1
        exact absurd h1 (hd1 q1)
      · rw [τ.add_other d e1] at h1
        rw [τ.add_other d e2] at h2
        exact hinj q1 q2 d' h1 h2
  · intro π c j hj hch
    have hlook : ∀ i ≤ j, (if chainIn (rounds π) c i = q.1 then some d else τ.get (chainIn (rounds π) c i)) =
        some (c i) := by
      intro i hi
      rw [← τ.get_add]
      exact hch i (by omega)
    -- inputs of different rounds are different
    have hapart : ∀ (π π' : Prf) (c c' : Nat → Digest H), ∀ i < names.length, ∀ i' < names.length,
        chainIn (rounds π) c i = chainIn (rounds π') c' i' → i = i' := by
      intro π π' c c' i hi i' hi' he
      unfold chainIn at he
      rw [(hs π).name, (hs π').name, List.append_assoc, List.append_assoc] at he
      exact hn i hi i' hi' _ _ he
    by_cases hex : ∃ i ≤ j, chainIn (rounds π) c i = q.1
    · obtain ⟨i, hi, hiq⟩ := hex
      have hci : c i = d := by
        have := hlook i hi
        rw [if_pos hiq] at this
        exact (Option.some.inj this).symm
      rcases Nat.lt_or_ge i j with hlt | hge
      · exfalso
        have h1 := hlook (i + 1) hlt
        rw [if_neg (fun h2 => by
          have := hapart π π c c (i + 1) (by omega) i (by omega) (h2.trans hiq.symm)
          omega)] at h1
        obtain ⟨hb, h3⟩ := RTable.get_some h1
        refine hd2 _ (by rw [h3]; simp) ⟨i + 1, by omega, ((rounds π).getD (i + 1) ([], [])).2.flatten, ?_⟩
        show chainIn (rounds π) c (i + 1) = _
        unfold chainIn
        rw [(hs π).name, if_neg (Nat.succ_ne_zero i), Nat.add_sub_cancel, hci]
      · have hij : i = j := by omega
        subst hij
        have hchain : τ.Chain (rounds π) c i := by
          intro i' hi'
          have h1 := hlook i' (by omega)
          rw [if_neg (fun h2 => by
            have := hapart π π c c i' (by omega) i hj (h2.trans hiq.symm)
            omega)] at h1
          exact h1
        have hex : ∃ x : Prf × (Nat → Digest H) × Nat, x.2.2 < names.length ∧
            τ.Chain (rounds x.1) x.2.1 x.2.2 ∧ chainIn (rounds x.1) x.2.1 x.2.2 = q.1 :=
          ⟨(π, c, i), hj, hchain, hiq⟩
        rw [dif_pos hex] at hd3
        obtain ⟨s1, s2, s3⟩ := hex.choose_spec
        generalize hex.choose = x at hd3 s1 s2 s3
        obtain ⟨π', c', i'⟩ := x
        simp only at hd3 s1 s2 s3
        have := hapart π π' c c' i hj i' s1 (hiq.trans s3.symm)
        subst this
        obtain ⟨u1, u2⟩ := chain_unique (hs π) (hs π') hinj i hchain s2 (hiq.trans s3.symm)
        rw [hci, hloc π π' c c' i hj u1 u2]
        exact hd3
    · push Not at hex
      refine hfine π c j hj (fun i hi => ?_)
      have h1 := hlook i (by omega)
      rw [if_neg (hex i (by omega))] at h1
      exact h1

/-- The calls of the verifier. -/
noncomputable def askRounds : Bytes → List (Bytes × List Bytes) → Asker (Query n) (Digest H) Unit
  | _, [] => .answer ()
  | prev, r :: rs =>
    if hb : (r.1 ++ prev ++ r.2.flatten).length ≤ n then
      .ask ⟨_, hb⟩ (fun d => askRounds (List.ofFn d) rs) else .answer ()

theorem askRounds_atMost : ∀ (rs : List (Bytes × List Bytes)) (prev : Bytes),
    (askRounds prev rs : Asker (Query n) (Digest H) Unit).AtMost rs.length := by
  intro rs
  induction rs with
  | nil => intro prev; trivial
  | cons r rs ih =>
    intro prev
    unfold askRounds
    split
    · exact fun d => ih _
    · trivial

/-- The table only grows. -/
theorem Asker.table_mono {α : Type} (h : ROracle n H) (A : Asker (Query n) (Digest H) α) :
    ∀ τ, h ∈ τ.cons → h ∈ (A.table h τ).cons ∧ ∀ q, τ q ≠ none → A.table h τ q = some (h q) := by
  induction A with
  | answer a =>
    intro τ hc
    refine ⟨hc, fun q hq => ?_⟩
    obtain ⟨d, hd⟩ := Option.ne_none_iff_exists'.1 hq
    show τ q = _
    rw [hd, RTable.mem_cons.1 hc q d hd]
  | ask q k ih =>
    intro τ hc
    have hc' : h ∈ (τ.add q (h q)).cons := by
      rw [RTable.mem_cons] at hc ⊢
      intro q' d h1
      by_cases e : q' = q
      · subst e; rw [τ.add_same] at h1; exact Option.some.inj h1
      · rw [τ.add_other _ e] at h1; exact hc q' d h1
    obtain ⟨i1, i2⟩ := ih (h q) _ hc'
    refine ⟨i1, fun q' hq' => i2 q' ?_⟩
    by_cases e : q' = q
    · subst e; rw [τ.add_same]; simp
    · rw [τ.add_other _ e]; exact hq'

theorem Asker.table_ask {α : Type} (h : ROracle n H) (q : Query n) (k : Digest H → Asker (Query n) (Digest H) α) (τ : RTable (Query n) (Digest H))
    (hc : h ∈ τ.cons) : (Asker.ask q k).table h τ q = some (h q) := by
  have hc' : h ∈ (τ.add q (h q)).cons := by
    rw [RTable.mem_cons] at hc ⊢
    intro q' d h1
    by_cases e : q' = q
    · subst e; rw [τ.add_same] at h1; exact Option.some.inj h1
    · rw [τ.add_other _ e] at h1; exact hc q' d h1
  exact (Asker.table_mono h (k (h q)) _ hc').2 q (by rw [τ.add_same]; simp)

/-- After the calls of the verifier, all inputs are known. -/
theorem askRounds_table (h : ROracle n H) : ∀ (rs : List (Bytes × List Bytes)) (prev : Bytes) (τ : RTable (Query n) (Digest H)),
    h ∈ τ.cons → (∀ b ∈ fsInputs h.hash prev rs, b.length ≤ n) →
    ∀ b ∈ fsInputs h.hash prev rs, ∃ hb : b.length ≤ n,
      (askRounds prev rs : Asker (Query n) (Digest H) Unit).table h τ ⟨b, hb⟩ = some (h ⟨b, hb⟩) := by
  intro rs
  induction rs with
  | nil => intro prev τ _ _ b hb; cases hb
  | cons r rs ih =>
    intro prev τ hc hlen b hb
    obtain ⟨nm, ms⟩ := r
    unfold fsInputs at hb hlen
    have h0 : (nm ++ prev ++ ms.flatten).length ≤ n := hlen _ (by simp)
    have e : (askRounds prev ((nm, ms) :: rs) : Asker (Query n) (Digest H) Unit) =
        .ask ⟨_, h0⟩ (fun d => askRounds (List.ofFn d) rs) := by
      rw [askRounds]; exact dif_pos h0
    have hh : h.hash (nm ++ prev ++ ms.flatten) = List.ofFn (h ⟨_, h0⟩) := dif_pos h0
    have hc' : h ∈ (τ.add ⟨_, h0⟩ (h ⟨_, h0⟩)).cons := by
      rw [RTable.mem_cons] at hc ⊢
      intro q' d h1
      by_cases e : q' = ⟨_, h0⟩
      · subst e; rw [τ.add_same] at h1; exact Option.some.inj h1
      · rw [τ.add_other _ e] at h1; exact hc q' d h1
    rw [e]
    rcases List.mem_cons.1 hb with rfl | hb
    · exact ⟨h0, Asker.table_ask h _ _ τ hc⟩
    · rw [hh] at hb hlen
      exact ih _ _ hc' (fun b hb => hlen b (List.mem_cons_of_mem _ hb)) b hb

end

end Ringo
