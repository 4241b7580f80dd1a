import Verif.Proof.CtxHeap

/-!
# C115: what the context keeps is what it was given

`valueCalls` is what a caller's `Define` means: each call of the context gets the constraint, the
coefficients and the bound at their values at the time of the call.  `Disciplined` is how constraints,
coefficients and bounds have to be used for the code to do that: a constraint is extended in one of
its copies only, and neither a coefficient nor a bound is written to after it was passed.
-/

namespace Ringo

variable {F : Type}

/-- Constraints, field elements and big integers as values. -/
structure VState (F : Type) where
  vars : Nat → Constraint F
  cells : Nat → F
  bigs : Nat → Int

def VState.init (F : Type) [Zero F] : VState F := ⟨fun _ => [], fun _ => 0, fun _ => 0⟩

/-- The effect of a statement on the caller's variables. -/
def VState.step (s : VState F) : HOp F → VState F
  | .zero x => { s with vars := Function.update s.vars x [] }
  | .copy x y => { s with vars := Function.update s.vars x (s.vars y) }
  | .set q v => { s with cells := Function.update s.cells q v }
  | .setBig q v => { s with bigs := Function.update s.bigs q v }
  | .term x q pub ws => { s with vars := Function.update s.vars x (s.vars x ++ [⟨s.cells q, pub, ws⟩]) }
  | _ => s

/-- The call of the context a statement makes. -/
def VState.call (s : VState F) : HOp F → List (CtxOp F)
  | .arith x => [.arith (s.vars x)]
  | .sum x t => [.sum (s.vars x) t]
  | .infBig w q => [.inf w (s.bigs q)]
  | .sqBig w q => [.sq w (s.bigs q).toNat]
  | .inf w b => [.inf w b]
  | .sq w b => [.sq w b]
  | .lin o i n => [.lin o i n]
  | .approxBig w q => [.approx w (s.bigs q).toNat]
  | .approx w b => [.approx w b]
  | _ => []

/-- The calls a program makes, with values. -/
def valueCalls (s : VState F) : List (HOp F) → List (CtxOp F)
  | [] => []
  | op :: ops => s.call op ++ valueCalls (s.step op) ops

/-- Bookkeeping for the discipline: for each variable the version of the constraint it holds and the
number of its terms; the versions that have been extended; the elements and big integers passed. -/
structure Usage where
  next : Nat
  of : Nat → Nat × Nat
  ext : List Nat
  used : List Nat
  usedBig : List Nat

def Usage.init : Usage := ⟨1, fun _ => (0, 0), [], [], []⟩

def Usage.step (g : Usage) : HOp F → Usage
  | .zero x => { g with next := g.next + 1, of := Function.update g.of x (g.next, 0) }
  | .copy x y => { g with of := Function.update g.of x (g.of y) }
  | .term x q _ _ => { g with
      next := g.next + 1
      of := Function.update g.of x (g.next, (g.of x).2 + 1)
      ext := (g.of x).1 :: g.ext
      used := q :: g.used }
  | .infBig _ q => { g with usedBig := q :: g.usedBig }
  | .sqBig _ q => { g with usedBig := q :: g.usedBig }
  | _ => g

/-- No constraint with terms is extended twice; nothing passed is overwritten. -/
def Usage.Allows (g : Usage) : HOp F → Prop
  | .term x _ _ _ => (g.of x).2 = 0 ∨ (g.of x).1 ∉ g.ext
  | .set q _ => q ∉ g.used
  | .setBig q _ => q ∉ g.usedBig
  | _ => True

def Disciplined (g : Usage) : List (HOp F) → Prop
  | [] => True
  | op :: ops => g.Allows op ∧ Disciplined (g.step op) ops

/-! ## The memory -/

/-- A term with the pointer to its coefficient. -/
structure RawTerm where
  q : Nat
  pub : Option Nat
  ws : List Nat

def RawTerm.val (cells : Nat → F) (t : RawTerm) : Term F := ⟨cells t.q, t.pub, t.ws⟩

structure MemOk (m : CMem F) (n : Nat) (V : Nat → CStruct) (T : Nat → List RawTerm) (ext : List Nat) :
    Prop where
  ptrs : Fam m.ptrs n (fun v => (V v).coeffs) (fun v => (T v).map (·.q)) ext
  bools : Fam m.bools n (fun v => (V v).hasPub) (fun v => (T v).map (fun t => t.pub.isSome)) ext
  words : Fam m.words n (fun v => (V v).pubs) (fun v => (T v).map (fun t => t.pub.getD 0)) ext
  slices : Fam m.slices n (fun v => (V v).wits) (fun v => (T v).map (·.ws)) ext

theorem MemOk.read {m : CMem F} {n : Nat} {V : Nat → CStruct} {T : Nat → List RawTerm} {ext : List Nat}
    (h : MemOk m n V T ext) {v : Nat} (hv : v < n) :
    m.read (V v) = (T v).map (RawTerm.val m.cells) := by
  have l1 := h.ptrs.len v hv
  have l2 := h.bools.len v hv
  have l3 := h.words.len v hv
  have l4 := h.slices.len v hv
  simp only [List.length_map] at l1 l2 l3 l4
  apply List.ext_getElem
  · simp [CMem.read, l4]
  intro i h1 h2
  simp only [List.length_map] at h2
  have e1 := h.ptrs.read v hv i (by omega)
  have e2 := h.bools.read v hv i (by omega)
  have e3 := h.words.read v hv i (by omega)
  have e4 := h.slices.read v hv i (by omega)
  rw [List.getElem?_map, List.getElem?_eq_getElem h2, Option.map_some, Option.some_inj] at e1 e2 e3 e4
  simp only [CMem.read, List.getElem_map, List.getElem_range]
  rw [← e1, ← e2, ← e3, ← e4]
  unfold RawTerm.val
  cases hp : (T v)[i].pub <;> simp

theorem MemOk.zero {m : CMem F} {n : Nat} {V : Nat → CStruct} {T : Nat → List RawTerm} {ext : List Nat}
    (h : MemOk m n V T ext) :
    MemOk m (n + 1) (Function.update V n .zero) (Function.update T n []) ext := by
  have key : ∀ {β γ : Type} (f : β → γ) (W : Nat → β) (b : β),
      (fun v => f (Function.update W n b v)) = Function.update (fun v => f (W v)) n (f b) := by
    intro β γ f W b
    funext v
    by_cases hv : v = n
    · subst hv; simp
    · simp [Function.update_of_ne hv]
  refine ⟨?_, ?_, ?_, ?_⟩
  · rw [key CStruct.coeffs, key (List.map RawTerm.q)]; exact h.ptrs.zero
  · rw [key CStruct.hasPub, key (List.map (fun t : RawTerm => t.pub.isSome))]; exact h.bools.zero
  · rw [key CStruct.pubs, key (List.map (fun t : RawTerm => t.pub.getD 0))]; exact h.words.zero
  · rw [key CStruct.wits, key (List.map RawTerm.ws)]; exact h.slices.zero

theorem MemOk.term (G : Growth) {m : CMem F} {n : Nat} {V : Nat → CStruct} {T : Nat → List RawTerm}
    {ext : List Nat} (h : MemOk m n V T ext) {v : Nat} (hv : v < n) (q : Nat) (pub : Option Nat)
    (ws : List Nat) (hx : (T v).length = 0 ∨ v ∉ ext) :
    MemOk (m.addTerm G (V v) q pub ws).1 (n + 1) (Function.update V n (m.addTerm G (V v) q pub ws).2)
      (Function.update T n (T v ++ [⟨q, pub, ws⟩])) (v :: ext) := by
  have key : ∀ {β γ : Type} (f : β → γ) (W : Nat → β) (b : β),
      (fun v => f (Function.update W n b v)) = Function.update (fun v => f (W v)) n (f b) := by
    intro β γ f W b
    funext v
    by_cases hv : v = n
    · subst hv; simp
    · simp [Function.update_of_ne hv]
  have l1 := h.ptrs.len v hv
  have l2 := h.bools.len v hv
  have l3 := h.words.len v hv
  have l4 := h.slices.len v hv
  simp only [List.length_map] at l1 l2 l3 l4
  refine ⟨?_, ?_, ?_, ?_⟩
  · rw [key CStruct.coeffs, key (List.map RawTerm.q), List.map_append]
    exact h.ptrs.append G.ptr hv q (by simpa only [l1] using hx)
  · rw [key CStruct.hasPub, key (List.map (fun t : RawTerm => t.pub.isSome)), List.map_append]
    exact h.bools.append G.bool hv _ (by simpa only [l2] using hx)
  · rw [key CStruct.pubs, key (List.map (fun t : RawTerm => t.pub.getD 0)), List.map_append]
    exact h.words.append G.word hv _ (by simpa only [l3] using hx)
  · rw [key CStruct.wits, key (List.map RawTerm.ws), List.map_append]
    exact h.slices.append G.slice hv _ (by simpa only [l4] using hx)

/-! ## The context -/

set_option linter.unusedSectionVars false

section
variable [One F] [Neg F] [NatCast F]

theorem foldl_addArith_pre (l : List Nat) (ctx : Context F) :
    let r := l.foldl (fun (ctx : Context F) d => ctx.addArith (Context.ternary d)) ctx
    ctx.arith <+: r.arith ∧ r.sums = ctx.sums ∧ r.infDcmp = ctx.infDcmp ∧ r.twoDcmp = ctx.twoDcmp := by
  induction l generalizing ctx with
  | nil => exact ⟨List.prefix_rfl, rfl, rfl, rfl⟩
  | cons a l ih =>
    obtain ⟨h1, h2, h3, h4⟩ := ih (ctx.addArith (Context.ternary a))
    exact ⟨(List.prefix_append _ _).trans h1, h2, h3, h4⟩

/-- What a call does to the parts of the context that refer to the caller's memory. -/
theorem apply_parts {op : CtxOp F} {ctx ctx' : Context F} (h : ctx.apply op = .ok ctx') :
    ctx.arith <+: ctx'.arith ∧ ctx.sums <+: ctx'.sums ∧
    (∀ e ∈ ctx'.infDcmp, (e ∈ ctx.infDcmp ∧ ∀ w b, op = .inf w b → ¬ b < 2 → e.id ≠ w) ∨
      ∃ w b, op = .inf w b ∧ ¬ b < 2 ∧ e.id = w ∧ e.bound = b.toNat) ∧
    (∀ e ∈ ctx'.twoDcmp, (e ∈ ctx.twoDcmp ∧ ∀ w b, op = .sq w b → e.id ≠ w) ∨
      ∃ w b, op = .sq w b ∧ e.id = w ∧ e.bound = b) := by
  cases op with
  | arith c =>
    injection h with h
    subst h
    exact ⟨List.prefix_append _ _, List.prefix_rfl, fun e he => .inl ⟨he, by simp⟩,
      fun e he => .inl ⟨he, by simp⟩⟩
  | sum c s =>
    injection h with h
    subst h
    exact ⟨List.prefix_rfl, List.prefix_append _ _, fun e he => .inl ⟨he, by simp⟩,
      fun e he => .inl ⟨he, by simp⟩⟩
  | lin o i n =>
    injection h with h
    subst h
    exact ⟨List.prefix_rfl, List.prefix_rfl, fun e he => .inl ⟨he, by simp⟩,
      fun e he => .inl ⟨he, by simp⟩⟩
  | sq w b =>
    injection h with h
    subst h
    refine ⟨List.prefix_append _ _, List.prefix_append _ _, fun e he => .inl ⟨he, by simp⟩, ?_⟩
    intro e he
    rcases List.mem_append.1 he with he | he
    · rw [List.mem_filter] at he
      refine .inl ⟨he.1, ?_⟩
      intro w' b' h1
      injection h1 with h1 _
      subst h1
      simpa using he.2
    · rw [List.mem_singleton] at he
      subst he
      exact .inr ⟨w, b, rfl, rfl, rfl⟩
  | approx w b =>
    unfold Context.apply Context.addApprox at h
    simp only [bind, Except.bind] at h
    split at h
    · cases h
    · injection h with h
      subst h
      exact ⟨List.prefix_rfl, List.prefix_rfl, fun e he => .inl ⟨he, by simp⟩,
        fun e he => .inl ⟨he, by simp⟩⟩
  | inf w b =>
    change ctx.addInf w b = .ok ctx' at h
    unfold Context.addInf at h
    split at h
    · rename_i hb
      injection h with h
      subst h
      refine ⟨List.prefix_rfl, List.prefix_rfl, fun e he => .inl ⟨he, ?_⟩, fun e he => .inl ⟨he, by simp⟩⟩
      intro w' b' h1
      injection h1 with _ h1
      omega
    split at h
    · injection h with h
      subst h
      refine ⟨List.prefix_append _ _, List.prefix_rfl, fun e he => .inl ⟨he, ?_⟩,
        fun e he => .inl ⟨he, by simp⟩⟩
      intro w' b' h1
      injection h1 with _ h1
      omega
    split at h
    · injection h with h
      subst h
      refine ⟨List.prefix_append _ _, List.prefix_rfl, fun e he => .inl ⟨he, ?_⟩,
        fun e he => .inl ⟨he, by simp⟩⟩
      intro w' b' h1
      injection h1 with _ h1
      omega
    · simp only [bind, Except.bind] at h
      split at h
      · cases h
      · rename_i base _
        injection h with h
        subst h
        have hf := foldl_addArith_pre ((List.range base.length).map (ctx.wCnt + ·)) { ctx with
          infDcmp := ctx.infDcmp.filter (fun (e : InfEntry) => e.id ≠ w) ++
            [⟨w, b.toNat, (List.range base.length).map (ctx.wCnt + ·)⟩]
          wCnt := ctx.wCnt + base.length }
        obtain ⟨f1, f2, f3, f4⟩ := hf
        refine ⟨f1.trans (List.prefix_append _ _), ?_, ?_, ?_⟩
        · exact ⟨[], by rw [List.append_nil]; exact f2.symm⟩
        · intro e he
          change e ∈ Context.infDcmp _ at he
          have he' := f3 ▸ he
          rcases List.mem_append.1 he' with he | he
          · rw [List.mem_filter] at he
            refine .inl ⟨he.1, ?_⟩
            intro w' b' h1 _
            injection h1 with h1 _
            subst h1
            simpa using he.2
          · rw [List.mem_singleton] at he
            subst he
            exact .inr ⟨w, b, rfl, by omega, rfl, rfl⟩
        · intro e he
          have he' := f4 ▸ he
          exact .inl ⟨he', by simp⟩

/-! ## The invariant -/

/-- The constraints `l` of the context, some of them structs of the caller's. -/
structure SrcOk (cells : Nat → F) (n : Nat) (V : Nat → CStruct) (T : Nat → List RawTerm)
    (l : List (Constraint F)) (src : List (Option CStruct)) : Prop where
  len : src.length = l.length
  val : ∀ (i : Nat) s, src[i]? = some (some s) →
    ∃ v < n, s = V v ∧ l[i]? = some ((T v).map (RawTerm.val cells))

theorem SrcOk.mono {cells cells' : Nat → F} {n n' : Nat} {V V' : Nat → CStruct}
    {T T' : Nat → List RawTerm} {l : List (Constraint F)} {src : List (Option CStruct)}
    (h : SrcOk cells n V T l src) (hn : n ≤ n') (hV : ∀ v < n, V' v = V v)
    (hT : ∀ v < n, (T' v).map (RawTerm.val cells') = (T v).map (RawTerm.val cells)) :
    SrcOk cells' n' V' T' l src := by
  refine ⟨h.len, ?_⟩
  intro i s hs
  obtain ⟨v, h1, h2, h3⟩ := h.val i s hs
  exact ⟨v, by omega, by rw [hV v h1]; exact h2, by rw [hT v h1]; exact h3⟩

theorem SrcOk.pad {cells : Nat → F} {n : Nat} {V : Nat → CStruct} {T : Nat → List RawTerm}
    {l l' : List (Constraint F)} {src : List (Option CStruct)} (h : SrcOk cells n V T l src)
    (hl : l <+: l') : SrcOk cells n V T l' (padSrc src l') := by
  have hle := hl.length_le
  have := h.len
  refine ⟨by simp [padSrc]; omega, ?_⟩
  intro i s hs
  unfold padSrc at hs
  by_cases hi : i < src.length
  · rw [List.getElem?_append_left hi] at hs
    obtain ⟨v, h1, h2, h3⟩ := h.val i s hs
    refine ⟨v, h1, h2, ?_⟩
    obtain ⟨k, rfl⟩ := hl
    rw [List.getElem?_append_left (by omega)]
    exact h3
  · rw [List.getElem?_append_right (by omega), List.getElem?_replicate] at hs
    split at hs <;> simp at hs

theorem SrcOk.snoc {cells : Nat → F} {n : Nat} {V : Nat → CStruct} {T : Nat → List RawTerm}
    {l : List (Constraint F)} {src : List (Option CStruct)} (h : SrcOk cells n V T l src) {v : Nat}
    (hv : v < n) :
    SrcOk cells n V T (l ++ [(T v).map (RawTerm.val cells)]) (src ++ [some (V v)]) := by
  have := h.len
  refine ⟨by simp [this], ?_⟩
  intro i s hs
  by_cases hi : i < src.length
  · rw [List.getElem?_append_left hi] at hs
    obtain ⟨v', h1, h2, h3⟩ := h.val i s hs
    exact ⟨v', h1, h2, by rw [List.getElem?_append_left (by omega)]; exact h3⟩
  · rw [List.getElem?_append_right (by omega)] at hs
    rcases Nat.eq_zero_or_pos (i - src.length) with h0 | h0
    · rw [h0] at hs
      simp only [List.getElem?_cons_zero, Option.some_inj] at hs
      refine ⟨v, hv, hs.symm, ?_⟩
      rw [List.getElem?_append_right (by omega), show i - l.length = 0 by omega]
      rfl
    · rw [List.getElem?_eq_none (by simp; omega)] at hs
      cases hs

theorem SrcOk.look {m : CMem F} {n : Nat} {V : Nat → CStruct} {T : Nat → List RawTerm}
    {ext : List Nat} {l : List (Constraint F)} {src : List (Option CStruct)}
    (h : SrcOk m.cells n V T l src) (hm : MemOk m n V T ext) :
    List.zipWith m.look l src = l := by
  have hl := h.len
  apply List.ext_getElem (by simp [hl])
  intro i h1 h2
  rw [List.getElem_zipWith]
  cases hs : src[i]'(by omega) with
  | none => rfl
  | some s =>
    obtain ⟨v, e1, e2, e3⟩ := h.val i s (by rw [List.getElem?_eq_getElem (by omega), hs])
    rw [List.getElem?_eq_getElem h2, Option.some_inj] at e3
    change m.read s = _
    rw [e2, hm.read e1, e3]

structure RunOk (st : HState F) (vs : VState F) (g : Usage) (V : Nat → CStruct)
    (T : Nat → List RawTerm) : Prop where
  mem : MemOk st.mem g.next V T g.ext
  vars : ∀ x, (g.of x).1 < g.next ∧ st.vars x = V (g.of x).1 ∧ (T (g.of x).1).length = (g.of x).2 ∧
    vs.vars x = (T (g.of x).1).map (RawTerm.val st.mem.cells)
  cells : st.mem.cells = vs.cells
  bigs : st.mem.bigs = vs.bigs
  used : ∀ v < g.next, ∀ t ∈ T v, t.q ∈ g.used
  arith : SrcOk st.mem.cells g.next V T st.ctx.arith st.arithSrc
  sums : SrcOk st.mem.cells g.next V T st.ctx.sums st.sumSrc
  inf : ∀ e ∈ st.ctx.infDcmp, ∀ q, st.infPtr e.id = some q →
    (st.mem.bigs q).toNat = e.bound ∧ q ∈ g.usedBig
  two : ∀ e ∈ st.ctx.twoDcmp, ∀ q, st.twoPtr e.id = some q →
    (st.mem.bigs q).toNat = e.bound ∧ q ∈ g.usedBig

/-- In memory the context is what was computed at the time of the calls. -/
theorem RunOk.context {st : HState F} {vs : VState F} {g : Usage} {V : Nat → CStruct}
    {T : Nat → List RawTerm} (h : RunOk st vs g V T) : st.context = st.ctx := by
  unfold HState.context
  have e1 := h.arith.look h.mem
  have e2 := h.sums.look h.mem
  have e3 : st.ctx.infDcmp.map (fun e =>
      { e with bound := st.mem.lookBig e.bound (st.infPtr e.id) }) =
      st.ctx.infDcmp := by
    conv_rhs => rw [← List.map_id st.ctx.infDcmp]
    apply List.map_congr_left
    intro e he
    cases hq : st.infPtr e.id with
    | none => rfl
    | some q =>
      change { e with bound := (st.mem.bigs q).toNat } = e
      rw [(h.inf e he q hq).1]
  have e4 : st.ctx.twoDcmp.map (fun e =>
      { e with bound := st.mem.lookBig e.bound (st.twoPtr e.id) }) =
      st.ctx.twoDcmp := by
    conv_rhs => rw [← List.map_id st.ctx.twoDcmp]
    apply List.map_congr_left
    intro e he
    cases hq : st.twoPtr e.id with
    | none => rfl
    | some q =>
      change { e with bound := (st.mem.bigs q).toNat } = e
      rw [(h.two e he q hq).1]
  simp only [e1, e2, e3, e4]

theorem define_one (ctx : Context F) (op : CtxOp F) : ctx.define [op] = ctx.apply op := by
  unfold Context.define
  rw [List.foldlM_cons]
  cases ctx.apply op <;> rfl

/-- The two semantics of one statement. -/
def StepOk (G : Growth) (st : HState F) (vs : VState F) (g : Usage) (op : HOp F) : Prop :=
  match st.step G op with
  | .error e => st.ctx.define (vs.call op) = .error e
  | .ok st' => st.ctx.define (vs.call op) = .ok st'.ctx ∧
      ∃ V T, RunOk st' (vs.step op) (g.step op) V T

/-- A call that changes no pointers. -/
theorem RunOk.callOk {st : HState F} {vs : VState F} {g : Usage} {V : Nat → CStruct}
    {T : Nat → List RawTerm} (h : RunOk st vs g V T) (op : CtxOp F) (infPtr twoPtr : Nat → Option Nat)
    (usedBig : List Nat) (hsub : ∀ q ∈ g.usedBig, q ∈ usedBig)
    (hi : ∀ i, (∀ w b, op = .inf w b → ¬ b < 2 → i ≠ w) → infPtr i = st.infPtr i)
    (hi' : ∀ w b, op = .inf w b → ¬ b < 2 → ∀ q, infPtr w = some q →
      st.mem.bigs q = b ∧ q ∈ usedBig)
    (ht : ∀ i, (∀ w b, op = .sq w b → i ≠ w) → twoPtr i = st.twoPtr i)
    (ht' : ∀ w b, op = .sq w b → ∀ q, twoPtr w = some q →
      (st.mem.bigs q).toNat = b ∧ q ∈ usedBig) :
    match st.call op with
    | .error e => st.ctx.apply op = .error e
    | .ok st' => st.ctx.apply op = .ok st'.ctx ∧
        RunOk { st' with infPtr := infPtr, twoPtr := twoPtr } vs { g with usedBig := usedBig } V T := by
  unfold HState.call
  cases ha : st.ctx.apply op with
  | error e => rfl
  | ok ctx' =>
    obtain ⟨p1, p2, p3, p4⟩ := apply_parts ha
    refine ⟨rfl, ⟨h.mem, h.vars, h.cells, h.bigs, h.used, h.arith.pad p1, h.sums.pad p2, ?_, ?_⟩⟩
    · intro e he q hq
      rcases p3 e he with ⟨h1, h2⟩ | ⟨w, b, h1, h2, h3, h4⟩
      · change infPtr e.id = some q at hq
        rw [hi _ h2] at hq
        exact ⟨(h.inf e h1 q hq).1, hsub _ (h.inf e h1 q hq).2⟩
      · change infPtr e.id = some q at hq
        rw [h3] at hq
        obtain ⟨h5, h6⟩ := hi' w b h1 h2 q hq
        exact ⟨by rw [h4, ← h5], h6⟩
    · intro e he q hq
      rcases p4 e he with ⟨h1, h2⟩ | ⟨w, b, h1, h3, h4⟩
      · change twoPtr e.id = some q at hq
        rw [ht _ h2] at hq
        exact ⟨(h.two e h1 q hq).1, hsub _ (h.two e h1 q hq).2⟩
      · change twoPtr e.id = some q at hq
        rw [h3] at hq
        obtain ⟨h5, h6⟩ := ht' w b h1 q hq
        exact ⟨by rw [h4, ← h5], h6⟩

theorem val_map_update {cells : Nat → F} {q : Nat} (v : F) (l : List RawTerm) (h : ∀ t ∈ l, t.q ≠ q) :
    l.map (RawTerm.val (Function.update cells q v)) = l.map (RawTerm.val cells) := by
  apply List.map_congr_left
  intro t ht
  unfold RawTerm.val
  rw [Function.update_of_ne (h t ht)]

theorem call_ptrs {st st' : HState F} {op : CtxOp F} (h : st.call op = .ok st') :
    st'.twoPtr = st.twoPtr ∧ st'.infPtr = st.infPtr := by
  unfold HState.call at h
  cases ha : st.ctx.apply op with
  | error e => rw [ha] at h; cases h
  | ok ctx' =>
    rw [ha] at h
    injection h with h
    subst h
    exact ⟨rfl, rfl⟩

theorem RunOk.step (G : Growth) {st : HState F} {vs : VState F} {g : Usage} {V : Nat → CStruct}
    {T : Nat → List RawTerm} (h : RunOk st vs g V T) (op : HOp F) (ha : g.Allows op) :
    StepOk G st vs g op := by
  cases op with
  | zero x =>
    have hV : ∀ v < g.next, Function.update V g.next CStruct.zero v = V v :=
      fun v hv => Function.update_of_ne (by omega) _ _
    have hT : ∀ v < g.next, Function.update T g.next [] v = T v :=
      fun v hv => Function.update_of_ne (by omega) _ _
    refine ⟨rfl, Function.update V g.next .zero, Function.update T g.next [],
      ⟨h.mem.zero, ?_, h.cells, h.bigs, ?_, ?_, ?_, h.inf, h.two⟩⟩
    · intro y
      by_cases hy : y = x
      · subst hy
        simp [VState.step, Usage.step]
      · obtain ⟨a1, a2, a3, a4⟩ := h.vars y
        simp only [VState.step, Usage.step, Function.update_of_ne hy]
        rw [hV _ a1, hT _ a1]
        exact ⟨by omega, a2, a3, a4⟩
    · intro v hv t ht
      by_cases hn : v = g.next
      · subst hn; simp at ht
      · rw [Function.update_of_ne hn] at ht
        have hv' : v < g.next + 1 := hv
        exact h.used v (by omega) t ht
    · exact h.arith.mono (Nat.le_succ _) hV (fun v hv => by rw [hT v hv])
    · exact h.sums.mono (Nat.le_succ _) hV (fun v hv => by rw [hT v hv])
  | copy x y =>
    refine ⟨rfl, V, T, ⟨h.mem, ?_, h.cells, h.bigs, h.used, h.arith, h.sums, h.inf, h.two⟩⟩
    intro z
    by_cases hz : z = x
    · subst hz
      simp only [VState.step, Usage.step, Function.update_self]
      exact h.vars y
    · simp only [VState.step, Usage.step, Function.update_of_ne hz]
      exact h.vars z
  | set q v =>
    have hq : q ∉ g.used := ha
    have hT : ∀ u < g.next, (T u).map (RawTerm.val (Function.update st.mem.cells q v)) =
        (T u).map (RawTerm.val st.mem.cells) := by
      intro u hu
      apply val_map_update
      intro t ht e
      exact hq (e ▸ h.used u hu t ht)
    refine ⟨rfl, V, T, ⟨⟨h.mem.ptrs, h.mem.bools, h.mem.words, h.mem.slices⟩, ?_, ?_, h.bigs, h.used,
      h.arith.mono le_rfl (fun _ _ => rfl) hT, h.sums.mono le_rfl (fun _ _ => rfl) hT, h.inf, h.two⟩⟩
    · intro x
      obtain ⟨a1, a2, a3, a4⟩ := h.vars x
      exact ⟨a1, a2, a3, a4.trans (hT _ a1).symm⟩
    · show Function.update st.mem.cells q v = Function.update vs.cells q v
      rw [h.cells]
  | setBig q v =>
    have hq : q ∉ g.usedBig := ha
    refine ⟨rfl, V, T, ⟨⟨h.mem.ptrs, h.mem.bools, h.mem.words, h.mem.slices⟩, h.vars, h.cells, ?_, h.used,
      h.arith, h.sums, ?_, ?_⟩⟩
    · show Function.update st.mem.bigs q v = Function.update vs.bigs q v
      rw [h.bigs]
    · intro e he q' hq'
      obtain ⟨a1, a2⟩ := h.inf e he q' hq'
      refine ⟨?_, a2⟩
      show (Function.update st.mem.bigs q v q').toNat = _
      rw [Function.update_of_ne (fun e : q' = q => hq (e ▸ a2))]
      exact a1
    · intro e he q' hq'
      obtain ⟨a1, a2⟩ := h.two e he q' hq'
      refine ⟨?_, a2⟩
      show (Function.update st.mem.bigs q v q').toNat = _
      rw [Function.update_of_ne (fun e : q' = q => hq (e ▸ a2))]
      exact a1
  | term x q pub ws =>
    obtain ⟨b1, b2, b3, b4⟩ := h.vars x
    have hx : (T (g.of x).1).length = 0 ∨ (g.of x).1 ∉ g.ext := by rw [b3]; exact ha
    have hm := h.mem.term G b1 q pub ws hx
    rw [← b2] at hm
    have hV : ∀ v < g.next, Function.update V g.next (st.mem.addTerm G (st.vars x) q pub ws).2 v = V v :=
      fun v hv => Function.update_of_ne (by omega) _ _
    have hT : ∀ v < g.next, Function.update T g.next (T (g.of x).1 ++ [⟨q, pub, ws⟩]) v = T v :=
      fun v hv => Function.update_of_ne (by omega) _ _
    refine ⟨rfl, _, _, ⟨hm, ?_, h.cells, h.bigs, ?_, ?_, ?_, h.inf, h.two⟩⟩
    · intro y
      by_cases hy : y = x
      · subst hy
        simp only [VState.step, Usage.step, Function.update_self]
        refine ⟨by omega, trivial, by simp [b3], ?_⟩
        rw [b4, List.map_append, ← h.cells]
        rfl
      · obtain ⟨a1, a2, a3, a4⟩ := h.vars y
        simp only [VState.step, Usage.step, Function.update_of_ne hy]
        rw [hV _ a1, hT _ a1]
        exact ⟨by omega, a2, a3, a4⟩
    · intro v hv t ht
      have hv' : v < g.next + 1 := hv
      by_cases hn : v = g.next
      · subst hn
        rw [Function.update_self] at ht
        rcases List.mem_append.1 ht with ht | ht
        · exact List.mem_cons_of_mem _ (h.used _ b1 t ht)
        · rw [List.mem_singleton] at ht
          subst ht
          exact List.mem_cons_self
      · rw [Function.update_of_ne hn] at ht
        exact List.mem_cons_of_mem _ (h.used v (by omega) t ht)
    · exact h.arith.mono (Nat.le_succ _) hV (fun v hv => by rw [hT v hv]; rfl)
    · exact h.sums.mono (Nat.le_succ _) hV (fun v hv => by rw [hT v hv]; rfl)
  | arith x =>
    obtain ⟨b1, b2, b3, b4⟩ := h.vars x
    have hr : st.mem.read (st.vars x) = vs.vars x := by rw [b2, h.mem.read b1, b4]
    refine ⟨?_, V, T, ⟨h.mem, h.vars, h.cells, h.bigs, h.used, ?_, h.sums, h.inf, h.two⟩⟩
    · simp only [VState.call]
      rw [define_one, ← hr]
      rfl
    · have := h.arith.snoc b1
      rw [← b4, ← b2, ← hr] at this
      exact this
  | sum x s =>
    obtain ⟨b1, b2, b3, b4⟩ := h.vars x
    have hr : st.mem.read (st.vars x) = vs.vars x := by rw [b2, h.mem.read b1, b4]
    refine ⟨?_, V, T, ⟨h.mem, h.vars, h.cells, h.bigs, h.used, h.arith, ?_, h.inf, h.two⟩⟩
    · simp only [VState.call]
      rw [define_one, ← hr]
      rfl
    · have := h.sums.snoc b1
      rw [← b4, ← b2, ← hr] at this
      exact this
  | infBig w q =>
    have key := h.callOk (.inf w (st.mem.bigs q))
      (if st.mem.bigs q < 2 then st.infPtr else Function.update st.infPtr w (some q)) st.twoPtr
      (q :: g.usedBig) (fun _ hq => List.mem_cons_of_mem _ hq)
      (by
        intro i hi
        split
        · rfl
        · rename_i hb
          rw [Function.update_of_ne (hi w _ rfl hb)])
      (by
        intro w' b' h1 h2 q' hq'
        injection h1 with h1 h3
        subst h1 h3
        rw [if_neg h2, Function.update_self, Option.some_inj] at hq'
        subst hq'
        exact ⟨rfl, List.mem_cons_self⟩)
      (fun _ _ => rfl) (fun w' b' h1 => by cases h1)
    unfold StepOk HState.step
    simp only [VState.call]
    rw [define_one, ← h.bigs]
    cases hc : st.call (.inf w (st.mem.bigs q)) with
    | error e => rw [hc] at key; exact key
    | ok st' =>
      rw [hc] at key
      obtain ⟨k1, k2⟩ := key
      have ht := call_ptrs hc
      show st.ctx.apply _ = .ok (HState.ctx (if st.mem.bigs q < 2 then st' else _)) ∧ _
      by_cases hb : st.mem.bigs q < 2
      · rw [if_pos hb] at k2 ⊢
        refine ⟨k1, V, T, ?_⟩
        have : ({ st' with infPtr := st.infPtr, twoPtr := st.twoPtr } : HState F) = st' := by
          rw [← ht.1, ← ht.2]
        rw [this] at k2
        exact k2
      · rw [if_neg hb] at k2 ⊢
        refine ⟨k1, V, T, ?_⟩
        rw [← ht.1] at k2
        exact k2
  | sqBig w q =>
    have key := h.callOk (.sq w (st.mem.bigs q).toNat) st.infPtr (Function.update st.twoPtr w (some q))
      (q :: g.usedBig) (fun _ hq => List.mem_cons_of_mem _ hq)
      (fun _ _ => rfl) (fun w' b' h1 => by cases h1)
      (by intro i hi; rw [Function.update_of_ne (hi w _ rfl)])
      (by
        intro w' b' h1 q' hq'
        injection h1 with h1 h3
        subst h1 h3
        rw [Function.update_self, Option.some_inj] at hq'
        subst hq'
        exact ⟨rfl, List.mem_cons_self⟩)
    unfold StepOk HState.step
    simp only [VState.call]
    rw [define_one, ← h.bigs]
    cases hc : st.call (.sq w (st.mem.bigs q).toNat) with
    | error e => rw [hc] at key; exact key
    | ok st' =>
      rw [hc] at key
      obtain ⟨k1, k2⟩ := key
      have ht := (call_ptrs hc).2
      rw [← ht] at k2
      exact ⟨k1, V, T, k2⟩
  | inf w b =>
    have key := h.callOk (.inf w b)
      (if b < 2 then st.infPtr else Function.update st.infPtr w none) st.twoPtr
      g.usedBig (fun _ hq => hq)
      (by
        intro i hi
        split
        · rfl
        · rename_i hb
          rw [Function.update_of_ne (hi w _ rfl (by omega))])
      (by
        intro w' b' h1 h2 q' hq'
        injection h1 with h1 h3
        subst h1 h3
        rw [if_neg (by omega), Function.update_self] at hq'
        cases hq')
      (fun _ _ => rfl) (fun w' b' h1 => by cases h1)
    unfold StepOk HState.step
    simp only [VState.call]
    rw [define_one]
    cases hc : st.call (.inf w b) with
    | error e => rw [hc] at key; exact key
    | ok st' =>
      rw [hc] at key
      obtain ⟨k1, k2⟩ := key
      have ht := call_ptrs hc
      show st.ctx.apply _ = .ok (HState.ctx (if b < 2 then st' else _)) ∧ _
      by_cases hb : b < 2
      · rw [if_pos hb] at k2 ⊢
        refine ⟨k1, V, T, ?_⟩
        have : ({ st' with infPtr := st.infPtr, twoPtr := st.twoPtr } : HState F) = st' := by
          rw [← ht.1, ← ht.2]
        rw [this] at k2
        exact k2
      · rw [if_neg hb] at k2 ⊢
        refine ⟨k1, V, T, ?_⟩
        rw [← ht.1] at k2
        exact k2
  | sq w b =>
    have key := h.callOk (.sq w b) st.infPtr (Function.update st.twoPtr w none)
      g.usedBig (fun _ hq => hq)
      (fun _ _ => rfl) (fun w' b' h1 => by cases h1)
      (by intro i hi; rw [Function.update_of_ne (hi w _ rfl)])
      (by
        intro w' b' h1 q' hq'
        injection h1 with h1 h3
        subst h1 h3
        rw [Function.update_self] at hq'
        cases hq')
    unfold StepOk HState.step
    simp only [VState.call]
    rw [define_one]
    cases hc : st.call (.sq w b) with
    | error e => rw [hc] at key; exact key
    | ok st' =>
      rw [hc] at key
      obtain ⟨k1, k2⟩ := key
      have ht := (call_ptrs hc).2
      rw [← ht] at k2
      exact ⟨k1, V, T, k2⟩
  | lin o i n =>
    have key := h.callOk (.lin o i n) st.infPtr st.twoPtr g.usedBig (fun _ hq => hq)
      (fun _ _ => rfl) (fun w' b' h1 => by cases h1) (fun _ _ => rfl) (fun w' b' h1 => by cases h1)
    unfold StepOk HState.step
    simp only [VState.call]
    rw [define_one]
    cases hc : st.call (.lin o i n) with
    | error e => rw [hc] at key; exact key
    | ok st' =>
      rw [hc] at key
      obtain ⟨k1, k2⟩ := key
      have ht := call_ptrs hc
      rw [← ht.1, ← ht.2] at k2
      exact ⟨k1, V, T, k2⟩
  | approxBig w q =>
    have key := h.callOk (.approx w (st.mem.bigs q).toNat) st.infPtr st.twoPtr g.usedBig (fun _ hq => hq)
      (fun _ _ => rfl) (fun w' b' h1 => by cases h1) (fun _ _ => rfl) (fun w' b' h1 => by cases h1)
    unfold StepOk HState.step
    simp only [VState.call]
    rw [define_one, ← h.bigs]
    cases hc : st.call (.approx w (st.mem.bigs q).toNat) with
    | error e => rw [hc] at key; exact key
    | ok st' =>
      rw [hc] at key
      obtain ⟨k1, k2⟩ := key
      have ht := call_ptrs hc
      rw [← ht.1, ← ht.2] at k2
      exact ⟨k1, V, T, k2⟩
  | approx w b =>
    have key := h.callOk (.approx w b) st.infPtr st.twoPtr g.usedBig (fun _ hq => hq)
      (fun _ _ => rfl) (fun w' b' h1 => by cases h1) (fun _ _ => rfl) (fun w' b' h1 => by cases h1)
    unfold StepOk HState.step
    simp only [VState.call]
    rw [define_one]
    cases hc : st.call (.approx w b) with
    | error e => rw [hc] at key; exact key
    | ok st' =>
      rw [hc] at key
      obtain ⟨k1, k2⟩ := key
      have ht := call_ptrs hc
      rw [← ht.1, ← ht.2] at k2
      exact ⟨k1, V, T, k2⟩

theorem RunOk.run (G : Growth) (ops : List (HOp F)) {st : HState F} {vs : VState F} {g : Usage}
    {V : Nat → CStruct} {T : Nat → List RawTerm} (h : RunOk st vs g V T) (hd : Disciplined g ops) :
    (st.run G ops).map HState.context = st.ctx.define (valueCalls vs ops) := by
  induction ops generalizing st vs g V T with
  | nil =>
    show Except.ok st.context = Except.ok st.ctx
    rw [h.context]
  | cons op ops ih =>
    have hs := h.step G op hd.1
    unfold StepOk at hs
    unfold HState.run valueCalls Context.define
    rw [List.foldlM_cons, List.foldlM_append]
    unfold Context.define at hs
    cases hst : st.step G op with
    | error e =>
      rw [hst] at hs
      simp only at hs
      rw [hs]
      rfl
    | ok st' =>
      rw [hst] at hs
      obtain ⟨h1, V', T', h2⟩ := hs
      rw [h1]
      exact ih h2 hd.2

end

/-- **C115.** However `append` allocates: for a `Define` that follows the discipline, the context in
memory afterwards - when `Compile`, `Prove` and `Verify` read it - is the one made by the same calls
with the values the arguments had at the time of the call (and `Define` panics if one of these calls
does). -/
theorem C115_values [Zero F] [One F] [Neg F] [NatCast F] (G : Growth) (ctx : Context F)
    (ops : List (HOp F)) (hd : Disciplined Usage.init ops) :
    ((HState.init ctx).run G ops).map HState.context =
      ctx.define (valueCalls (VState.init F) ops) := by
  have hF : ∀ {α : Type} (m : Backing α), Fam m 1 (fun _ => ⟨0, 0, 0⟩) (fun _ => []) [] := by
    intro α m
    refine ⟨?_, ?_, ?_, ?_, ?_, ?_, ?_⟩ <;> simp
  refine RunOk.run G ops (g := Usage.init) (V := fun _ => .zero) (T := fun _ => []) ?_ hd
  refine ⟨⟨hF _, hF _, hF _, hF _⟩, ?_, rfl, rfl, by simp, ?_, ?_, ?_, ?_⟩
  · intro x; exact ⟨Nat.one_pos, rfl, rfl, rfl⟩
  · refine ⟨by simp [HState.init], ?_⟩
    intro i s hs
    simp only [HState.init, List.map_const', List.getElem?_replicate] at hs
    split at hs <;> simp at hs
  · refine ⟨by simp [HState.init], ?_⟩
    intro i s hs
    simp only [HState.init, List.map_const', List.getElem?_replicate] at hs
    split at hs <;> simp at hs
  · intro e _ q hq; cases hq
  · intro e _ q hq; cases hq

end Ringo
