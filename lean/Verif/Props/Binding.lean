import Verif.Spec.FiatShamir
import Verif.Props.ZeroKnow
import Verif.Props.JProtoEx
import Mathlib.Data.List.Flatten

/-!
# C88: the challenges bind the commitments
-/

namespace Ringo

set_option linter.unusedSectionVars false

section
variable {p : Nat} [Fact p.Prime] {E : Env (ZMod p)} {cp : Compilation (ZMod p)}

theorem comBytes_eq (π : BProof (ZMod p) E.pcs) (is : List Nat) (h : ∀ i ∈ is, i < π.witness.length) :
    comBytes E π is = is.map (serW π) := by
  unfold comBytes
  induction is with
  | nil => rfl
  | cons i is ih =>
    have hi := h i (by simp)
    rw [List.filterMap_cons, List.getElem?_eq_getElem hi, List.map_cons]
    simp only [Option.map_some]
    rw [ih (fun j hj => h j (by simp [hj]))]
    unfold serW
    rw [List.getElem?_eq_getElem hi]

theorem maskMsg_eq {α : Type} (l : List α) (π : BProof (ZMod p) E.pcs) (s : Option (ZMod p)) (i : Nat)
    (h : l ≠ [] → i < π.witness.length) :
    (if l = [] then [] else comBytes E π [i] ++ [E.marshal (s.getD 0)]) = maskMsg E π l.length s i := by
  unfold maskMsg
  by_cases hl : l = []
  · rw [if_pos hl, if_neg (by simp [hl])]
  · rw [if_neg hl, if_pos (List.length_pos_iff.2 hl), comBytes_eq π [i] (by simpa using h hl)]
    rfl

/-- The challenges are the hashes of the inputs. -/
theorem chalsOf_inputs (hlt : ∀ i ∈ cp.ctx.wSecond, i < cp.ctx.wCnt) (π : BProof (ZMod p) E.pcs)
    (hw : nextOf cp.ctx ≤ π.witness.length) :
    (bucklerInputs E cp.ctx π).map E.hash =
      [(chalsOf E cp.ctx π).proj, (chalsOf E cp.ctx π).ab, (chalsOf E cp.ctx π).lb,
       (chalsOf E cp.ctx π).lc, (chalsOf E cp.ctx π).sb, (chalsOf E cp.ctx π).x] := by
  have hn : nextOf cp.ctx = cp.ctx.wCnt + (if cp.ctx.lin = [] then 0 else 1) +
      (if cp.ctx.sums = [] then 0 else 1) := by
    unfold nextOf
    by_cases h1 : cp.ctx.lin = [] <;> by_cases h2 : cp.ctx.sums = [] <;>
      simp [h1, h2, List.length_pos_iff]
  have hl : (if cp.ctx.lin.length > 0 then 1 else 0) = (if cp.ctx.lin = [] then 0 else 1) := by
    by_cases h1 : cp.ctx.lin = [] <;> simp [h1, List.length_pos_iff]
  have e1 : comBytes E π ((List.range cp.ctx.wCnt).filter (· ∉ cp.ctx.wSecond)) =
      (firstSlots cp.ctx cp.ctx.wCnt).map (serW π) := by
    rw [comBytes_eq]
    · rfl
    · intro i hi
      rw [List.mem_filter, List.mem_range] at hi
      omega
  have e2 : comBytes E π cp.ctx.wSecond ++
      (if cp.ctx.lin = [] then [] else
        comBytes E π [cp.ctx.wCnt] ++ [E.marshal (π.linMaskSum.getD 0)]) ++
      (if cp.ctx.sums = [] then [] else
        comBytes E π [cp.ctx.wCnt + (if cp.ctx.lin = [] then 0 else 1)] ++
          [E.marshal (π.sumMaskSum.getD 0)]) = msgs2 E cp.ctx π := by
    unfold msgs2
    rw [comBytes_eq π _ (fun i hi => by have := hlt i hi; omega), hl]
    rw [maskMsg_eq cp.ctx.lin π π.linMaskSum cp.ctx.wCnt (fun h => by rw [if_neg h] at hn; omega),
      maskMsg_eq cp.ctx.sums π π.sumMaskSum _ (fun h => by rw [if_neg h] at hn; omega)]
  have e3 : (π.witness.drop (cp.ctx.wCnt + (if cp.ctx.lin = [] then 0 else 1) +
      (if cp.ctx.sums = [] then 0 else 1))).map E.pcs.ser =
      (List.range' (nextOf cp.ctx) (π.witness.length - nextOf cp.ctx)).map (serW π) := by
    rw [← hn]
    apply List.ext_getElem (by simp)
    intro i h1 h2
    rw [List.getElem_map, List.getElem_map, List.getElem_drop, List.getElem_range']
    unfold serW
    simp only [List.length_map, List.length_drop] at h1
    rw [List.getElem?_eq_getElem (by omega)]
    simp
  unfold bucklerInputs bucklerRounds
  simp only
  rw [e1, e2, e3]
  rfl

theorem flatten_inj_of {l₁ l₂ : List Bytes} (h : l₁.flatten = l₂.flatten)
    (hl : l₁.map List.length = l₂.map List.length) : l₁ = l₂ :=
  List.eq_iff_flatten_eq.2 ⟨h, hl⟩

/-- One round: name, previous challenge of fixed length, messages of fixed lengths. -/
theorem round_inj {name v₁ v₂ : Bytes} {S₁ S₂ : List Bytes} (hv : v₁.length = v₂.length)
    (hS : S₁.map List.length = S₂.map List.length)
    (h : name ++ v₁ ++ S₁.flatten = name ++ v₂ ++ S₂.flatten) : v₁ = v₂ ∧ S₁ = S₂ := by
  rw [List.append_assoc, List.append_assoc, List.append_cancel_left_eq] at h
  obtain ⟨h1, h2⟩ := List.append_inj h hv
  exact ⟨h1, flatten_inj_of h2 hS⟩

/-- The bytes of commitments have the same lengths. -/
theorem comBytes_lengths {L : Nat} (hL : ∀ c, (E.pcs.ser c).length = L) (π₁ π₂ : BProof (ZMod p) E.pcs)
    (is : List Nat) (h₁ : ∀ i ∈ is, i < π₁.witness.length) (h₂ : ∀ i ∈ is, i < π₂.witness.length) :
    (comBytes E π₁ is).map List.length = (comBytes E π₂ is).map List.length := by
  rw [comBytes_eq π₁ is h₁, comBytes_eq π₂ is h₂, List.map_map, List.map_map]
  apply List.map_congr_left
  intro i hi
  simp only [Function.comp, serW]
  rw [List.getElem?_eq_getElem (h₁ i hi), List.getElem?_eq_getElem (h₂ i hi)]
  simp only [hL]

theorem comBytes_inj (hs : Function.Injective E.pcs.ser) (π₁ π₂ : BProof (ZMod p) E.pcs)
    (is : List Nat) (h₁ : ∀ i ∈ is, i < π₁.witness.length) (h₂ : ∀ i ∈ is, i < π₂.witness.length)
    (h : comBytes E π₁ is = comBytes E π₂ is) : ∀ i ∈ is, π₁.witness[i]? = π₂.witness[i]? := by
  rw [comBytes_eq π₁ is h₁, comBytes_eq π₂ is h₂] at h
  intro i hi
  have := List.map_inj_left.1 h i hi
  simp only [serW] at this
  rw [List.getElem?_eq_getElem (h₁ i hi), List.getElem?_eq_getElem (h₂ i hi)] at this ⊢
  rw [hs this]

/-- **C88, Buckler.** The six challenges are the hashes of the six inputs listed in the specification, in
this order; and if the hash function has no collision among these inputs, each challenge determines
everything sent before it: the first the commitments of the first round, the second (and so the next
three) all commitments to witnesses and to the masks, and the sums of the masks, the last one all
commitments.  Commitments and field elements are assumed to be written without ambiguity. -/
theorem C88_binding {N ty pw0 w0 : Nat} {ops : List (CtxOp (ZMod p))}
    (hc : compile N ty pw0 w0 ops = .ok cp) (π₁ π₂ : BProof (ZMod p) E.pcs)
    (hw₁ : π₁.witness.length = cp.ctx.batch) (hw₂ : π₂.witness.length = cp.ctx.batch)
    (he₁ : π₁.evals.length = cp.ctx.batch) (he₂ : π₂.evals.length = cp.ctx.batch)
    (hl₁ : cp.ctx.lin ≠ [] → π₁.linMaskSum ≠ none) (hl₂ : cp.ctx.lin ≠ [] → π₂.linMaskSum ≠ none)
    (hs₁ : cp.ctx.sums ≠ [] → π₁.sumMaskSum ≠ none) (hs₂ : cp.ctx.sums ≠ [] → π₂.sumMaskSum ≠ none)
    (hser : Function.Injective E.pcs.ser) {L : Nat} (hL : ∀ c, (E.pcs.ser c).length = L)
    (hmar : Function.Injective E.marshal) {M : Nat} (hM : ∀ a, (E.marshal a).length = M)
    {H : Nat} (hH : ∀ b, (E.hash b).length = H)
    (hcol : Set.InjOn E.hash {b | b ∈ bucklerInputs E cp.ctx π₁ ∨ b ∈ bucklerInputs E cp.ctx π₂}) :
    ∃ ch₁ l₁ s₁ n₁ ch₂ l₂ s₂ n₂, challengesV E cp π₁ = .ok (some (ch₁, l₁, s₁, n₁)) ∧
      challengesV E cp π₂ = .ok (some (ch₂, l₂, s₂, n₂)) ∧
      (bucklerInputs E cp.ctx π₁).map E.hash = [ch₁.proj, ch₁.ab, ch₁.lb, ch₁.lc, ch₁.sb, ch₁.x] ∧
      (ch₁.proj = ch₂.proj → ∀ i < cp.ctx.wCnt, i ∉ cp.ctx.wSecond → π₁.witness[i]? = π₂.witness[i]?) ∧
      (ch₁.ab = ch₂.ab ∨ ch₁.lb = ch₂.lb ∨ ch₁.lc = ch₂.lc ∨ ch₁.sb = ch₂.sb →
        (∀ i < cp.ctx.wCnt + (if cp.ctx.lin = [] then 0 else 1) + (if cp.ctx.sums = [] then 0 else 1),
          π₁.witness[i]? = π₂.witness[i]?) ∧
        (cp.ctx.lin ≠ [] → π₁.linMaskSum = π₂.linMaskSum) ∧
        (cp.ctx.sums ≠ [] → π₁.sumMaskSum = π₂.sumMaskSum)) ∧
      (ch₁.x = ch₂.x → π₁.witness = π₂.witness ∧
        (cp.ctx.lin ≠ [] → π₁.linMaskSum = π₂.linMaskSum) ∧
        (cp.ctx.sums ≠ [] → π₁.sumMaskSum = π₂.sumMaskSum)) := by
  have hi : CtxInv2 N cp.ctx := CtxInv2.define ops (CtxInv2.new _ _ _ _) (compile_inv hc).1
  have hb := batch_eq cp.ctx
  have shape : ∀ π : BProof (ZMod p) E.pcs, π.witness.length = cp.ctx.batch → π.evals.length = cp.ctx.batch →
      (cp.ctx.lin ≠ [] → π.linMaskSum ≠ none) → (cp.ctx.sums ≠ [] → π.sumMaskSum ≠ none) →
      PfShape cp.ctx π := fun π h1 h2 h3 h4 => ⟨by omega, by omega,
        fun h => Option.ne_none_iff_exists'.1 (h3 (length_pos_ne.1 h)),
        fun h => Option.ne_none_iff_exists'.1 (h4 (length_pos_ne.1 h))⟩
  have i₁ := chalsOf_inputs (E := E) hi.lt π₁ (by omega)
  have i₂ := chalsOf_inputs (E := E) hi.lt π₂ (by omega)
  refine ⟨_, _, _, _, _, _, _, _, challengesV_eq π₁ hi.lt (shape π₁ hw₁ he₁ hl₁ hs₁),
    challengesV_eq π₂ hi.lt (shape π₂ hw₂ he₂ hl₂ hs₂), i₁, ?_⟩
  have hn : nextOf cp.ctx = cp.ctx.wCnt + (if cp.ctx.lin = [] then 0 else 1) +
      (if cp.ctx.sums = [] then 0 else 1) := by
    unfold nextOf
    by_cases h1 : cp.ctx.lin = [] <;> by_cases h2 : cp.ctx.sums = [] <;>
      simp [h1, h2, List.length_pos_iff]
  -- the rounds
  obtain ⟨A₁, A₂, A₃, hA₁⟩ : ∃ A₁ A₂ A₃, bucklerRounds E cp.ctx π₁ =
      [("projConst".toUTF8.toList, A₁), ("arithBatchConst".toUTF8.toList, A₂),
       ("linCheckBatchConst".toUTF8.toList, []), ("linCheckConst".toUTF8.toList, []),
       ("sumCheckBatchConst".toUTF8.toList, []), ("evalPoint".toUTF8.toList, A₃)] := ⟨_, _, _, rfl⟩
  obtain ⟨B₁, B₂, B₃, hB₁⟩ : ∃ B₁ B₂ B₃, bucklerRounds E cp.ctx π₂ =
      [("projConst".toUTF8.toList, B₁), ("arithBatchConst".toUTF8.toList, B₂),
       ("linCheckBatchConst".toUTF8.toList, []), ("linCheckConst".toUTF8.toList, []),
       ("sumCheckBatchConst".toUTF8.toList, []), ("evalPoint".toUTF8.toList, B₃)] := ⟨_, _, _, rfl⟩
  have hA := hA₁
  have hB := hB₁
  unfold bucklerRounds at hA hB
  simp only [List.cons.injEq, Prod.mk.injEq, true_and, and_true] at hA hB
  obtain ⟨a1, a2, a3⟩ := hA
  obtain ⟨b1, b2, b3⟩ := hB
  have hlt1 : ∀ i ∈ (List.range cp.ctx.wCnt).filter (· ∉ cp.ctx.wSecond), i < cp.ctx.batch := by
    intro i hi
    rw [List.mem_filter, List.mem_range] at hi
    omega
  have hlt2 : ∀ i ∈ cp.ctx.wSecond, i < cp.ctx.batch := fun i h => by have := hi.lt i h; omega
  -- lengths
  have len1 : A₁.map List.length = B₁.map List.length := by
    rw [← a1, ← b1]
    exact comBytes_lengths hL _ _ _ (by rw [hw₁]; exact hlt1) (by rw [hw₂]; exact hlt1)
  have mlen : ∀ {α : Type} (l : List α) (s₁ s₂ : Option (ZMod p)) (i : Nat), (l ≠ [] → i < cp.ctx.batch) →
      (if l = [] then [] else comBytes E π₁ [i] ++ [E.marshal (s₁.getD 0)]).map List.length =
      (if l = [] then [] else comBytes E π₂ [i] ++ [E.marshal (s₂.getD 0)]).map List.length := by
    intro α l s₁ s₂ i h
    by_cases hl : l = []
    · rw [if_pos hl, if_pos hl]
    · rw [if_neg hl, if_neg hl, List.map_append, List.map_append,
        comBytes_lengths hL π₁ π₂ [i] (by simpa [hw₁] using h hl) (by simpa [hw₂] using h hl)]
      simp [hM]
  have minj : ∀ {α : Type} (l : List α) (s₁ s₂ : Option (ZMod p)) (i : Nat), (l ≠ [] → i < cp.ctx.batch) →
      (l ≠ [] → s₁ ≠ none) → (l ≠ [] → s₂ ≠ none) →
      (if l = [] then [] else comBytes E π₁ [i] ++ [E.marshal (s₁.getD 0)]) =
      (if l = [] then [] else comBytes E π₂ [i] ++ [E.marshal (s₂.getD 0)]) → l ≠ [] →
      π₁.witness[i]? = π₂.witness[i]? ∧ s₁ = s₂ := by
    intro α l s₁ s₂ i h n1 n2 he hl
    rw [if_neg hl, if_neg hl] at he
    obtain ⟨e1, e2⟩ := List.append_inj' he rfl
    refine ⟨comBytes_inj hser π₁ π₂ [i] (by simpa [hw₁] using h hl) (by simpa [hw₂] using h hl) e1 i
      (by simp), ?_⟩
    obtain ⟨x₁, rfl⟩ := Option.ne_none_iff_exists'.1 (n1 hl)
    obtain ⟨x₂, rfl⟩ := Option.ne_none_iff_exists'.1 (n2 hl)
    simp only [List.cons.injEq, and_true, Option.getD_some] at e2
    rw [hmar e2]
  have hmL : cp.ctx.lin ≠ [] → cp.ctx.wCnt < cp.ctx.batch := fun h => by
    rw [if_neg h] at hn; omega
  have hmS : cp.ctx.sums ≠ [] → cp.ctx.wCnt + (if cp.ctx.lin = [] then 0 else 1) < cp.ctx.batch := fun h => by
    rw [if_neg h] at hn; omega
  have len2 : A₂.map List.length = B₂.map List.length := by
    rw [← a2, ← b2, List.map_append, List.map_append, List.map_append, List.map_append,
      comBytes_lengths hL π₁ π₂ _ (by rw [hw₁]; exact hlt2) (by rw [hw₂]; exact hlt2),
      mlen cp.ctx.lin π₁.linMaskSum π₂.linMaskSum _ hmL,
      mlen cp.ctx.sums π₁.sumMaskSum π₂.sumMaskSum _ hmS]
  have len3 : A₃.map List.length = B₃.map List.length := by
    rw [← a3, ← b3, List.map_map, List.map_map]
    apply List.ext_getElem (by simp [hw₁, hw₂])
    intro i _ _
    simp [hL]
  -- what equality of the messages means
  have conc1 : A₁ = B₁ → ∀ i < cp.ctx.wCnt, i ∉ cp.ctx.wSecond → π₁.witness[i]? = π₂.witness[i]? := by
    intro h i hi1 hi2
    rw [← a1, ← b1] at h
    exact comBytes_inj hser π₁ π₂ _ (by rw [hw₁]; exact hlt1) (by rw [hw₂]; exact hlt1) h i
      (by rw [List.mem_filter, List.mem_range]; exact ⟨hi1, by simpa using hi2⟩)
  have conc2 : A₁ = B₁ → A₂ = B₂ →
      (∀ i < cp.ctx.wCnt + (if cp.ctx.lin = [] then 0 else 1) + (if cp.ctx.sums = [] then 0 else 1),
          π₁.witness[i]? = π₂.witness[i]?) ∧
        (cp.ctx.lin ≠ [] → π₁.linMaskSum = π₂.linMaskSum) ∧
        (cp.ctx.sums ≠ [] → π₁.sumMaskSum = π₂.sumMaskSum) := by
    intro h1 h2
    rw [← a2, ← b2] at h2
    have hm := mlen cp.ctx.sums π₁.sumMaskSum π₂.sumMaskSum _ hmS
    have hm' := congrArg List.length hm
    rw [List.length_map, List.length_map] at hm'
    obtain ⟨e1, e2⟩ := List.append_inj' h2 hm'
    have hn1 := mlen cp.ctx.lin π₁.linMaskSum π₂.linMaskSum _ hmL
    have hn' := congrArg List.length hn1
    rw [List.length_map, List.length_map] at hn'
    obtain ⟨e3, e4⟩ := List.append_inj' e1 hn'
    have k1 := comBytes_inj hser π₁ π₂ _ (by rw [hw₁]; exact hlt2) (by rw [hw₂]; exact hlt2) e3
    have k2 := minj cp.ctx.lin _ _ _ hmL hl₁ hl₂ e4
    have k3 := minj cp.ctx.sums _ _ _ hmS hs₁ hs₂ e2
    refine ⟨?_, fun h => (k2 h).2, fun h => (k3 h).2⟩
    intro i hi'
    by_cases hw : i < cp.ctx.wCnt
    · by_cases hs : i ∈ cp.ctx.wSecond
      · exact k1 i hs
      · exact conc1 h1 i hw hs
    · by_cases hl : cp.ctx.lin = []
      · rw [if_pos hl] at hi' k3
        by_cases hs : cp.ctx.sums = []
        · rw [if_pos hs] at hi'; omega
        · rw [if_neg hs] at hi'
          have : i = cp.ctx.wCnt + 0 := by omega
          rw [this]; exact (k3 hs).1
      · rw [if_neg hl] at hi' k3
        by_cases hil : i = cp.ctx.wCnt
        · rw [hil]; exact (k2 hl).1
        · by_cases hs : cp.ctx.sums = []
          · rw [if_pos hs] at hi'; omega
          · rw [if_neg hs] at hi'
            have : i = cp.ctx.wCnt + 1 := by omega
            rw [this]; exact (k3 hs).1
  have conc3 : A₁ = B₁ → A₂ = B₂ → A₃ = B₃ → π₁.witness = π₂.witness := by
    intro h1 h2 h3
    obtain ⟨k, -, -⟩ := conc2 h1 h2
    rw [← a3, ← b3] at h3
    have hd := List.map_injective_iff.2 hser h3
    have ht : π₁.witness.take (cp.ctx.wCnt + (if cp.ctx.lin = [] then 0 else 1) +
        (if cp.ctx.sums = [] then 0 else 1)) = π₂.witness.take (cp.ctx.wCnt +
        (if cp.ctx.lin = [] then 0 else 1) + (if cp.ctx.sums = [] then 0 else 1)) := by
      apply List.ext_getElem?
      intro i
      rw [List.getElem?_take, List.getElem?_take]
      by_cases hi' : i < cp.ctx.wCnt + (if cp.ctx.lin = [] then 0 else 1) +
        (if cp.ctx.sums = [] then 0 else 1)
      · rw [if_pos hi', if_pos hi', k i hi']
      · rw [if_neg hi', if_neg hi']
    rw [← List.take_append_drop (cp.ctx.wCnt + (if cp.ctx.lin = [] then 0 else 1) +
        (if cp.ctx.sums = [] then 0 else 1)) π₁.witness, ht, hd, List.take_append_drop]
  -- the hashes
  unfold bucklerInputs at i₁ i₂ hcol
  rw [hA₁] at i₁ hcol
  rw [hB₁] at i₂ hcol
  simp only [fsInputs, List.map_cons, List.map_nil, List.cons.injEq, and_true] at i₁ i₂
  obtain ⟨p1, p2, p3, p4, p5, p6⟩ := i₁
  obtain ⟨q1, q2, q3, q4, q5, q6⟩ := i₂
  rw [p1] at p2
  rw [p1, p2] at p3
  rw [p1, p2, p3] at p4
  rw [p1, p2, p3, p4] at p5
  rw [p1, p2, p3, p4, p5] at p6
  rw [q1] at q2
  rw [q1, q2] at q3
  rw [q1, q2, q3] at q4
  rw [q1, q2, q3, q4] at q5
  rw [q1, q2, q3, q4, q5] at q6
  simp only [fsInputs, p1, p2, p3, p4, p5, q1, q2, q3, q4, q5, List.mem_cons, List.not_mem_nil,
    or_false] at hcol
  have lenv : ∀ {a b x y : Bytes}, E.hash a = x → E.hash b = y → x.length = y.length := by
    rintro a b x y rfl rfl
    rw [hH, hH]
  have s1 : (chalsOf E cp.ctx π₁).proj = (chalsOf E cp.ctx π₂).proj → A₁ = B₁ := by
    intro h
    rw [← p1, ← q1] at h
    exact (round_inj rfl len1 (hcol (by simp) (by simp) h)).2
  have s2 : (chalsOf E cp.ctx π₁).ab = (chalsOf E cp.ctx π₂).ab → A₁ = B₁ ∧ A₂ = B₂ := by
    intro h
    rw [← p2, ← q2] at h
    obtain ⟨h1, h2⟩ := round_inj (lenv p1 q1) len2 (hcol (by simp) (by simp) h)
    exact ⟨s1 h1, h2⟩
  have s3 : (chalsOf E cp.ctx π₁).lb = (chalsOf E cp.ctx π₂).lb →
      (chalsOf E cp.ctx π₁).ab = (chalsOf E cp.ctx π₂).ab := by
    intro h
    rw [← p3, ← q3] at h
    exact (round_inj (lenv p2 q2) rfl (hcol (by simp) (by simp) h)).1
  have s4 : (chalsOf E cp.ctx π₁).lc = (chalsOf E cp.ctx π₂).lc →
      (chalsOf E cp.ctx π₁).lb = (chalsOf E cp.ctx π₂).lb := by
    intro h
    rw [← p4, ← q4] at h
    exact (round_inj (lenv p3 q3) rfl (hcol (by simp) (by simp) h)).1
  have s5 : (chalsOf E cp.ctx π₁).sb = (chalsOf E cp.ctx π₂).sb →
      (chalsOf E cp.ctx π₁).lc = (chalsOf E cp.ctx π₂).lc := by
    intro h
    rw [← p5, ← q5] at h
    exact (round_inj (lenv p4 q4) rfl (hcol (by simp) (by simp) h)).1
  refine ⟨fun h => conc1 (s1 h), ?_, ?_⟩
  · intro h
    have hab : (chalsOf E cp.ctx π₁).ab = (chalsOf E cp.ctx π₂).ab := by
      rcases h with h | h | h | h
      · exact h
      · exact s3 h
      · exact s3 (s4 h)
      · exact s3 (s4 (s5 h))
    obtain ⟨h1, h2⟩ := s2 hab
    exact conc2 h1 h2
  · intro h
    rw [← p6, ← q6] at h
    obtain ⟨h1, h3⟩ := round_inj (lenv p5 q5) len3 (hcol (by simp) (by simp) h)
    obtain ⟨h1, h2⟩ := s2 (s3 (s4 (s5 h1)))
    obtain ⟨-, k2, k3⟩ := conc2 h1 h2
    exact ⟨conc3 h1 h2 h3, k2, k3⟩

/-! ### A case -/

/-- A checksum of two bytes. -/
def checksum (b : Bytes) : Bytes :=
  let n := b.foldl (fun a x => (a * 251 + x.toNat + 1) % 65521) 0
  [UInt8.ofNat (n / 256), UInt8.ofNat (n % 256)]

/-- Five polynomials, committed with one-time pads; the sum of the mask is `s`. -/
def case88 (a s : ZMod 193) : BProof (ZMod 193) (padPCS 193 2) :=
  ⟨[![a, 1], ![0, 1], ![1, 2], ![3, 5], ![8, 13]], none, some s, [1, 2, 3, 4, 5], ()⟩

/-- Its rounds. -/
def rounds88 (a s : ZMod 193) : List (Bytes × List Bytes) :=
  [("projConst".toUTF8.toList, [[UInt8.ofNat a.val, 1]]),
   ("arithBatchConst".toUTF8.toList, [[0, 1], [UInt8.ofNat s.val]]),
   ("linCheckBatchConst".toUTF8.toList, []), ("linCheckConst".toUTF8.toList, []),
   ("sumCheckBatchConst".toUTF8.toList, []),
   ("evalPoint".toUTF8.toList, [[1, 2], [3, 5], [8, 13]])]

/-- `C88_binding` applies: the circuit with the single constraint `Σ X = 0` over `p = 193`, rank 8, the
commitment scheme of `padPCS` and a checksum for the hash function, for two proofs that differ in the
first commitment and two that differ in the sum of the mask. -/
theorem C88_case (xof : Bytes → Nat → UInt8) (setBytes : Bytes → ZMod 193)
    (users : Nat → LinearChecker (ZMod 193)) :
    ∃ cp, compile (p := 193) 8 0 0 1 [.sum [⟨1, none, [0]⟩] 0] = .ok cp ∧
      ∃ ch₁ l₁ s₁ n₁ ch₂ l₂ s₂ n₂ ch₃ l₃ s₃ n₃,
      challengesV ⟨padPCS 193 2, checksum, xof, fun a => [UInt8.ofNat a.val], setBytes, users⟩ cp
        (case88 0 0) = .ok (some (ch₁, l₁, s₁, n₁)) ∧
      challengesV ⟨padPCS 193 2, checksum, xof, fun a => [UInt8.ofNat a.val], setBytes, users⟩ cp
        (case88 1 0) = .ok (some (ch₂, l₂, s₂, n₂)) ∧
      challengesV ⟨padPCS 193 2, checksum, xof, fun a => [UInt8.ofNat a.val], setBytes, users⟩ cp
        (case88 0 1) = .ok (some (ch₃, l₃, s₃, n₃)) ∧
      ch₁.proj ≠ ch₂.proj ∧ ch₁.x ≠ ch₂.x ∧ ch₁.ab ≠ ch₃.ab ∧ ch₁.sb ≠ ch₃.sb := by
  obtain ⟨ctx, a1, a2, a3, a4, a5, a6, a7⟩ : ∃ ctx, (newContext (ZMod 193) 8 0 0 1).define
      [.sum [⟨1, none, [0]⟩] 0] = .ok ctx ∧ ctx.embRank = 16 ∧ ctx.wCnt = 1 ∧ ctx.wSecond = [] ∧
      ctx.lin = [] ∧ ctx.sums.length = 1 ∧ ctx.batch = 5 :=
    ⟨_, rfl, rfl, rfl, rfl, rfl, rfl, rfl⟩
  obtain ⟨cp, h1, h2⟩ := compile_total (p := 193) (N := 8) (ty := 0) (pw0 := 0) (w0 := 1)
    (K := 3) (Ke := 4) rfl (by norm_num) (by norm_num) a1 a2 (by norm_num) (by norm_num)
  refine ⟨cp, h1, ?_⟩
  rw [← h2] at a3 a4 a5 a6 a7
  have hs : cp.ctx.sums ≠ [] := by
    intro h
    rw [h] at a6
    cases a6
  set E : Env (ZMod 193) :=
    ⟨padPCS 193 2, checksum, xof, fun a => [UInt8.ofNat a.val], setBytes, users⟩ with hE
  have hval : Function.Injective (fun a : ZMod 193 => UInt8.ofNat a.val) := by decide +kernel
  have inp : ∀ a s, bucklerInputs E cp.ctx (case88 a s) = fsInputs checksum [] (rounds88 a s) := by
    intro a s
    unfold bucklerInputs bucklerRounds
    simp only [a3, a4, a5, if_neg hs]
    rfl
  have key := fun (π₁ π₂ : BProof (ZMod 193) (padPCS 193 2)) w1 w2 e1 e2 s1 s2 hcol =>
    C88_binding (E := E) h1 π₁ π₂ w1 w2 e1 e2 (fun h => absurd a5 h) (fun h => absurd a5 h)
      s1 s2 (fun a b h => List.ofFn_injective (List.map_injective_iff.2 hval h)) (L := 2)
      (fun c => by show ((List.ofFn c).map _).length = 2; simp)
      (fun a b h => hval (List.cons.inj h).1) (M := 1) (fun _ => rfl) (H := 2) (fun _ => rfl) hcol
  have k := fun a b s t hcol => key (case88 a s) (case88 b t) a7.symm a7.symm a7.symm a7.symm
    (fun _ => by simp [case88]) (fun _ => by simp [case88]) hcol
  have col : ∀ a b s t, (∀ u ∈ fsInputs checksum [] (rounds88 a s) ++ fsInputs checksum [] (rounds88 b t),
      ∀ v ∈ fsInputs checksum [] (rounds88 a s) ++ fsInputs checksum [] (rounds88 b t),
        checksum u = checksum v → u = v) →
      Set.InjOn E.hash {c | c ∈ bucklerInputs E cp.ctx (case88 a s) ∨
        c ∈ bucklerInputs E cp.ctx (case88 b t)} := by
    intro a b s t h u hu v hv huv
    rw [inp, inp] at hu hv
    exact h u (List.mem_append.2 hu) v (List.mem_append.2 hv) huv
  obtain ⟨ch₁, l₁, s₁, n₁, ch₂, l₂, s₂, n₂, e1, e2, -, p1, -, p3⟩ :=
    k 0 1 0 0 (col 0 1 0 0 (by decide +kernel))
  obtain ⟨ch₄, l₄, s₄, n₄, ch₃, l₃, s₃, n₃, e4, e3, -, -, q2, -⟩ :=
    k 0 0 0 1 (col 0 0 0 1 (by decide +kernel))
  obtain ⟨rfl, -⟩ : ch₁ = ch₄ ∧ True := by
    have := e1.symm.trans e4
    injection this with h
    injection h with h
    injection h with h
    exact ⟨h, trivial⟩
  have hne : (0 : ZMod 193) ≠ 1 := by decide
  refine ⟨_, _, _, _, _, _, _, _, _, _, _, _, e1, e2, e3, fun h => ?_, fun h => ?_, fun h => ?_,
    fun h => ?_⟩
  · have := p1 h 0 (by rw [a3]; omega) (by rw [a4]; simp)
    simp only [case88, List.getElem?_cons_zero, Option.some.injEq] at this
    exact hne (congrFun this 0)
  · have := (p3 h).1
    simp only [case88, List.cons.injEq, and_true] at this
    exact hne (congrFun this 0)
  · have := (q2 (.inl h)).2.2 hs
    simp only [case88, Option.some.injEq] at this
    exact hne this
  · have := (q2 (.inr (.inr (.inr h)))).2.2 hs
    simp only [case88, Option.some.injEq] at this
    exact hne this

end

/-! ## Jindo -/

section
variable {p : Nat} {T T' : Type} [AddCommGroup T] [AddCommGroup T']

theorem jindoFirst_eq (E : JEnv p T T') (x : ZMod p) (com : List (List T')) :
    E.firstMsgs x com = jindoFirst E x com := by
  unfold JEnv.firstMsgs jindoFirst
  rw [List.singleton_append, List.map_flatten, List.flatMap_def]

theorem jindoSecond_eq (E : JEnv p T T') (x : ZMod p) (com : List (List T')) (pf : JProof T T') :
    E.startMsgs x com ++ pf.parts.map .poly ++ [.poly pf.partMask] = jindoSecond E x com pf := by
  unfold JEnv.startMsgs jindoSecond JEnv.batchBytes
  rw [jindoFirst_eq]
  split <;> simp

theorem batchChals_congr (E : JEnv p T T') (xof' : List (JMsg T T' (ZMod p)) → Nat → List (BitVec 8))
    (x : ZMod p) (com : List (List T')) (h1 : xof' (jindoFirst E x com) = E.xof (jindoFirst E x com)) :
    ({ E with xof := xof' } : JEnv p T T').batchChals x com = E.batchChals x com ∧
    ({ E with xof := xof' } : JEnv p T T').startMsgs x com = E.startMsgs x com := by
  have hb : ({ E with xof := xof' } : JEnv p T T').batchBytes x com = E.batchBytes x com := by
    unfold JEnv.batchBytes
    rw [jindoFirst_eq, jindoFirst_eq, ← h1]
    rfl
  constructor
  · unfold JEnv.batchChals
    rw [hb]
  · unfold JEnv.startMsgs
    rw [hb]
    rfl

/-- **C88, Jindo.** `Verify` reads the extendable-output function at two inputs only, those of the
specification: its result does not change when the function is changed elsewhere. -/
theorem C88_jindo_verify [DecidableEq T] (E : JEnv p T T')
    (xof' : List (JMsg T T' (ZMod p)) → Nat → List (BitVec 8)) (x : ZMod p) (com : List (List T'))
    (y : List (ZMod p)) (pf : JProof T T')
    (h1 : xof' (jindoFirst E x com) = E.xof (jindoFirst E x com))
    (h2 : xof' (jindoSecond E x com pf) = E.xof (jindoSecond E x com pf)) :
    ({ E with xof := xof' } : JEnv p T T').verify x com y pf = E.verify x com y pf := by
  obtain ⟨hb, hs⟩ := batchChals_congr E xof' x com h1
  have hc : ({ E with xof := xof' } : JEnv p T T').colChals x com pf.parts pf.partMask =
      E.colChals x com pf.parts pf.partMask := by
    unfold JEnv.colChals
    rw [hs, jindoSecond_eq]
    simp only
    rw [h2]
  unfold JEnv.verify
  rw [hb, hc]
  rfl

/-- **C88, Jindo.** So does `Evaluate`, for the proof it returns. -/
theorem C88_jindo_evaluate (E : JEnv p T T')
    (xof' : List (JMsg T T' (ZMod p)) → Nat → List (BitVec 8)) (x : ZMod p) (v : List (List (ZMod p)))
    (com : List (List T')) (opens : List (JOpen T T')) (y : List (ZMod p)) (pf : JProof T T')
    (h : E.evaluate x v com opens = .ok (y, pf))
    (h1 : xof' (jindoFirst E x com) = E.xof (jindoFirst E x com))
    (h2 : xof' (jindoSecond E x com pf) = E.xof (jindoSecond E x com pf)) :
    ({ E with xof := xof' } : JEnv p T T').evaluate x v com opens = .ok (y, pf) := by
  obtain ⟨hb, hs⟩ := batchChals_congr E xof' x com h1
  unfold JEnv.evaluate at h ⊢
  rw [hb]
  simp only at h ⊢
  split at h
  · cases h
  rename_i c1
  rw [if_neg c1]
  split at h
  · cases h
  rename_i c2
  rw [if_neg c2]
  split at h
  · cases h
  rename_i c3
  rw [if_neg c3]
  obtain ⟨bb, e1, h⟩ := bind_ok_inv h
  obtain ⟨o, e2, h⟩ := bind_ok_inv h
  obtain ⟨le, e3, h⟩ := bind_ok_inv h
  obtain ⟨l, e4, h⟩ := bind_ok_inv h
  obtain ⟨parts, e5, h⟩ := bind_ok_inv h
  obtain ⟨pm, e6, h⟩ := bind_ok_inv h
  obtain ⟨ch, e7, h⟩ := bind_ok_inv h
  obtain ⟨en, e8, h⟩ := bind_ok_inv h
  obtain ⟨ml, e9, h⟩ := bind_ok_inv h
  obtain ⟨ev, e10, h⟩ := bind_ok_inv h
  cases h
  have hc : ({ E with xof := xof' } : JEnv p T T').colChals x com parts pm = E.colChals x com parts pm := by
    have := jindoSecond_eq E x com ⟨o.inCommit, parts, pm, en, ml⟩
    unfold JEnv.colChals
    simp only at this
    rw [hs, this]
    simp only
    rw [h2]
  rw [e1, go_bind_ok, show ({ E with xof := xof' } : JEnv p T T').batchOpen bb.1 bb.2 opens = _ from e2,
    go_bind_ok, e3, go_bind_ok, e4, go_bind_ok,
    show (List.mapM (fun i => ({ E with xof := xof' } : JEnv p T T').partialEval l o i) _) = _ from e5,
    go_bind_ok, show ({ E with xof := xof' } : JEnv p T T').partialEval l o _ = _ from e6, go_bind_ok,
    hc, e7, go_bind_ok,
    show (List.mapM (fun i => ({ E with xof := xof' } : JEnv p T T').response ch o.encode i) _) = _ from e8,
    go_bind_ok,
    show (List.mapM (fun i => ({ E with xof := xof' } : JEnv p T T').response ch o.mlwe i) _) = _ from e9,
    go_bind_ok, e10, go_bind_ok]
  rfl

/-- **C88, Jindo.** The first input determines the CRS, the point and the commitments; the second in
addition the partial evaluations.  (The number of polynomials in a commitment, and of partial
evaluations, is fixed by the parameters.) -/
theorem C88_jindo_binding (E₁ E₂ : JEnv p T T') (x₁ x₂ : ZMod p)
    (com₁ com₂ : List (List T')) (hcom : com₁.map List.length = com₂.map List.length) :
    (jindoFirst E₁ x₁ com₁ = jindoFirst E₂ x₂ com₂ →
      E₁.key.crs = E₂.key.crs ∧ x₁ = x₂ ∧ com₁ = com₂) ∧
    ∀ pf₁ pf₂ : JProof T T', pf₁.parts.length = pf₂.parts.length →
      jindoSecond E₁ x₁ com₁ pf₁ = jindoSecond E₂ x₂ com₂ pf₂ →
      E₁.key.crs = E₂.key.crs ∧ x₁ = x₂ ∧ com₁ = com₂ ∧ pf₁.parts = pf₂.parts ∧
        pf₁.partMask = pf₂.partMask := by
  have hlen : com₁.flatten.length = com₂.flatten.length := by
    rw [List.length_flatten, List.length_flatten, hcom]
  have first : jindoFirst E₁ x₁ com₁ = jindoFirst E₂ x₂ com₂ →
      E₁.key.crs = E₂.key.crs ∧ x₁ = x₂ ∧ com₁ = com₂ := by
    intro h
    unfold jindoFirst at h
    obtain ⟨h1, h2⟩ := List.append_inj' h rfl
    obtain ⟨h3, h4⟩ := List.append_inj h1 rfl
    have e1 : E₁.key.crs = E₂.key.crs := by simpa using h3
    have e2 : x₁ = x₂ := by simpa using h2
    have e3 : com₁.flatten = com₂.flatten :=
      List.map_injective_iff.2 (fun a b hab => by injection hab) h4
    exact ⟨e1, e2, List.eq_iff_flatten_eq.2 ⟨e3, hcom⟩⟩
  refine ⟨first, ?_⟩
  intro pf₁ pf₂ hp h
  unfold jindoSecond at h
  obtain ⟨h1, h2⟩ := List.append_inj' h rfl
  obtain ⟨h3, h4⟩ := List.append_inj' h1 (by simp [hp])
  have hf : (jindoFirst E₁ x₁ com₁).length = (jindoFirst E₂ x₂ com₂).length := by
    unfold jindoFirst
    rw [List.length_append, List.length_append, List.length_append, List.length_append,
      List.length_map, List.length_map, hlen]
    rfl
  obtain ⟨h5, -⟩ := List.append_inj h3 hf
  obtain ⟨k1, k2, k3⟩ := first h5
  exact ⟨k1, k2, k3, List.map_injective_iff.2 (fun a b hab => by injection hab) h4, by simpa using h2⟩

end

/-- `C88_jindo_verify` and `C88_jindo_binding` apply: parameters with `p = 257` and ring degree 4, and
any two commitments; a function changed at the empty input gives the same verdicts, and different
commitments give different inputs. -/
theorem C88_jindo_case (xof : List (JMsg (RQ exQs 4) (RQ [2305843009213693951] 4) (ZMod 257)) → Nat →
      List (BitVec 8)) (hx : ∀ ms i, (xof ms i).length = 16) :
    ∃ E : JEnv 257 (RQ exQs 4) (RQ [2305843009213693951] 4), E.par = exPar 2 ∧ E.xof = xof ∧
      (∀ x com y pf junk, JEnv.verify { E with xof := fun ms => match ms with
        | [] => junk
        | m :: ms => xof (m :: ms) } x com y pf = E.verify x com y pf) ∧
      ∀ x (a b : RQ [2305843009213693951] 4), a ≠ b → jindoFirst E x [[a], [a]] ≠ jindoFirst E x [[a], [b]] := by
  obtain ⟨E, h1, h2, -⟩ := exEnv 2 (by omega) xof hx
  refine ⟨E, h1, h2, ?_, ?_⟩
  · intro x com y pf junk
    refine C88_jindo_verify E _ x com y pf ?_ ?_
    · rw [h2]
      unfold jindoFirst
      simp only [List.cons_append]
    · rw [h2]
      unfold jindoSecond jindoFirst
      simp only [List.cons_append]
  · intro x a b hab h
    have := ((C88_jindo_binding E E x x [[a], [a]] [[a], [b]] rfl).1 h).2.2
    simp only [List.cons.injEq, and_true, true_and] at this
    exact hab this

end Ringo
