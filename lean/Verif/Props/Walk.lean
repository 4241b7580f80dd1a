import Verif.Proof.Walk
import Mathlib.Tactic.NormNum.Prime

/-!
# C25, C26, C27: witness handles and the walkers
-/

namespace Ringo

/-! ## C25 -/

theorem shl1_toNat {x : UInt64} (h : x.toNat < 2 ^ 63) : (x <<< 1).toNat = 2 * x.toNat := by
  rw [UInt64.toNat_shiftLeft]
  simp only [UInt64.reduceToNat, Nat.reduceMod]
  rw [Nat.mod_eq_of_lt (by rw [Nat.shiftLeft_eq]; omega), Nat.shiftLeft_eq]; omega

theorem encW_toNat {id : UInt64} (h : id.toNat < 2 ^ 62) :
    ((id + 1) <<< 1).toNat = 2 * (id.toNat + 1) := by
  have h1 : (id + 1).toNat = id.toNat + 1 := by
    rw [UInt64.toNat_add]; simp only [UInt64.reduceToNat]; omega
  rw [shl1_toNat (by omega), h1]

theorem encP_toNat {id : UInt64} (h : id.toNat < 2 ^ 62) :
    (((id + 1) <<< 1) + 1).toNat = 2 * (id.toNat + 1) + 1 := by
  rw [UInt64.toNat_add, encW_toNat h]; simp only [UInt64.reduceToNat]; omega

theorem decode_val {n k : Nat} (id : UInt64) (hk : k < 2) (h : id.toNat < 2 ^ 62)
    (hn : n = 2 * (id.toNat + 1) + k) : (UInt64.ofNat (n % 2 ^ 64) >>> 1) - 1 = id := by
  have hlt : n < 2 ^ 64 := by omega
  apply UInt64.toNat_inj.mp
  have h1 : (UInt64.ofNat (n % 2 ^ 64) >>> 1).toNat = id.toNat + 1 := by
    rw [UInt64.toNat_shiftRight, UInt64.toNat_ofNat']
    simp only [UInt64.reduceToNat, Nat.reduceMod, Nat.shiftRight_eq_div_pow]
    rw [Nat.mod_mod, Nat.mod_eq_of_lt hlt]; omega
  rw [UInt64.toNat_sub, h1]; simp only [UInt64.reduceToNat]; omega

/-- **C25** (decoding).  A constraint-building call decodes the handle of index `id` to `id`, for
both kinds of handle, as long as the encoded value `2·id + 3` is below the modulus. -/
theorem C25_decode (p : Nat) (id : UInt64) (h62 : id.toNat < 2 ^ 62) (hp : 2 * id.toNat + 3 < p) :
    witnessToID (idToWitness p id) = .ok id ∧ witnessToID (idToPublicWitness p id) = .ok id := by
  have : NeZero p := ⟨by omega⟩
  constructor
  · simp only [witnessToID, idToWitness, idx, List.getElem?_cons_zero, go_bind_ok, go_pure,
      encW_toNat h62, ZMod.val_natCast]
    rw [Nat.mod_eq_of_lt (by omega : 2 * (id.toNat + 1) < p),
      decode_val (k := 0) id (by omega) h62 (by omega)]
  · simp only [witnessToID, idToPublicWitness, idx, List.getElem?_cons_zero, go_bind_ok, go_pure,
      encP_toNat h62, ZMod.val_natCast]
    rw [Nat.mod_eq_of_lt (by omega : 2 * (id.toNat + 1) + 1 < p),
      decode_val (k := 1) id (by omega) h62 (by omega)]

/-- **C25** (kinds).  No public handle has the encoded value of a secret handle, and neither is the
zero element. -/
theorem C25_kinds (p : Nat) (a b : UInt64) (ha : a.toNat < 2 ^ 62) (hb : b.toNat < 2 ^ 62)
    (hpa : 2 * a.toNat + 3 < p) (hpb : 2 * b.toNat + 3 < p) :
    idToWitness p a ≠ idToPublicWitness p b ∧ idToWitness p a ≠ [0] ∧
      idToPublicWitness p b ≠ [0] := by
  have : NeZero p := ⟨by omega⟩
  have key : ∀ x y : Nat, x < p → y < p → ((x : ZMod p) = (y : ZMod p)) → x = y := by
    intro x y hx hy h
    have := congrArg ZMod.val h
    rwa [ZMod.val_natCast, ZMod.val_natCast, Nat.mod_eq_of_lt hx, Nat.mod_eq_of_lt hy] at this
  simp only [idToWitness, idToPublicWitness, encW_toNat ha, encP_toNat hb]
  refine ⟨fun h => ?_, fun h => ?_, fun h => ?_⟩
  · have := key _ _ (by omega) (by omega) (List.cons.inj h).1; omega
  · have := key _ 0 (by omega) (by omega) ((List.cons.inj h).1.trans Nat.cast_zero.symm); omega
  · have := key _ 0 (by omega) (by omega) ((List.cons.inj h).1.trans Nat.cast_zero.symm); omega

theorem ofNat62 {n : Nat} (h : n < 2 ^ 62) : (UInt64.ofNat n).toNat = n := by
  rw [UInt64.toNat_ofNat']; omega

mutual
theorem firstWalk_inj {p : Nat} : ∀ (v : Val (ZMod p)) (c : Cnt), Settable v →
    (firstWalk v c).2.1.w ≤ 2 ^ 62 → (firstWalk v c).2.1.pw ≤ 2 ^ 62 →
    2 * (firstWalk v c).2.1.w + 1 < p → 2 * (firstWalk v c).2.1.pw + 1 < p →
    ∀ P Q, (∀ s i s' i' h, (firstWalk v c).1.get? P = some (.wit s i h) →
        (firstWalk v c).1.get? Q = some (.wit s' i' h) → P = Q) ∧
      (∀ s i s' i' h, (firstWalk v c).1.get? P = some (.pub s i h) →
        (firstWalk v c).1.get? Q = some (.pub s' i' h) → P = Q)
  | .pub s i w, c, h, _, _, _, _, P, Q => by
    refine ⟨fun s i s' i' h h1 h2 => ?_, fun s i s' i' h h1 h2 => ?_⟩ <;>
      cases P <;> cases Q <;> simp [firstWalk, get?_nil] at h1 h2 ⊢ <;>
      split_ifs at h1 h2 <;> simp [get?_pub] at h1 h2
  | .wit s i w, c, h, _, _, _, _, P, Q => by
    refine ⟨fun s i s' i' h h1 h2 => ?_, fun s i s' i' h h1 h2 => ?_⟩ <;>
      cases P <;> cases Q <;> simp [firstWalk, get?_nil] at h1 h2 ⊢ <;>
      split_ifs at h1 h2 <;> simp [get?_wit] at h1 h2
  | .ptr v, c, h, a1, a2, a3, a4, P, Q => by
    simp only [firstWalk] at a1 a2 a3 a4 ⊢
    refine ⟨fun s i s' i' h' h1 h2 => ?_, fun s i s' i' h' h1 h2 => ?_⟩ <;>
      rcases P with _ | ⟨_ | j, r⟩ <;> simp [get?_nil, get?_ptr_succ, get?_ptr] at h1 <;>
      rcases Q with _ | ⟨_ | j, r'⟩ <;> simp [get?_nil, get?_ptr_succ, get?_ptr] at h2
    · rw [(firstWalk_inj v c h.ptr a1 a2 a3 a4 r r').1 _ _ _ _ _ h1 h2]
    · rw [(firstWalk_inj v c h.ptr a1 a2 a3 a4 r r').2 _ _ _ _ _ h1 h2]
  | .nilPtr, c, h, _, _, _, _, P, Q => by
    refine ⟨fun s i s' i' h h1 h2 => ?_, fun s i s' i' h h1 h2 => ?_⟩ <;>
      cases P <;> simp [firstWalk, get?_nil, get?_nilPtr] at h1
  | .fields vs, c, h, a1, a2, a3, a4, P, Q => by
    simp only [firstWalk] at a1 a2 a3 a4 ⊢
    exact firstWalks_inj vs c h a1 a2 a3 a4 P Q
  | .other, c, h, _, _, _, _, P, Q => by
    refine ⟨fun s i s' i' h h1 h2 => ?_, fun s i s' i' h h1 h2 => ?_⟩ <;>
      cases P <;> simp [firstWalk, get?_nil, get?_other] at h1
theorem firstWalks_inj {p : Nat} : ∀ (vs : List (Val (ZMod p))) (c : Cnt), Settable (.fields vs) →
    (firstWalks vs c).2.w ≤ 2 ^ 62 → (firstWalks vs c).2.pw ≤ 2 ^ 62 →
    2 * (firstWalks vs c).2.w + 1 < p → 2 * (firstWalks vs c).2.pw + 1 < p →
    ∀ P Q, (∀ s i s' i' h, (Val.fields (firstWalks vs c).1).get? P = some (.wit s i h) →
        (Val.fields (firstWalks vs c).1).get? Q = some (.wit s' i' h) → P = Q) ∧
      (∀ s i s' i' h, (Val.fields (firstWalks vs c).1).get? P = some (.pub s i h) →
        (Val.fields (firstWalks vs c).1).get? Q = some (.pub s' i' h) → P = Q)
  | [], c, h, _, _, _, _, P, Q => by
    refine ⟨fun s i s' i' h h1 h2 => ?_, fun s i s' i' h h1 h2 => ?_⟩ <;>
      cases P <;> simp [firstWalks, get?_nil, get?_fields_nil] at h1
  | v :: vs, c, h, a1, a2, a3, a4, P, Q => by
    have c1 := firstWalk_compiled v c h.head
    have c2 := firstWalks_compiled vs (firstWalk v c).2.1 h.tail
    simp only [firstWalks] at a1 a2 a3 a4 ⊢
    have l1 := c2.le_w
    have l2 := c2.le_pw
    have ih1 := firstWalk_inj v c h.head (by omega) (by omega) (by omega) (by omega)
    have ih2 := firstWalks_inj vs _ h.tail a1 a2 a3 a4
    -- a handle of the head never equals a handle of the tail
    have dw : ∀ r j r' s i s' i' hd, (firstWalk v c).1.get? r = some (.wit s i hd) →
        (Val.fields (firstWalks vs (firstWalk v c).2.1).1).get? (j :: r') = some (.wit s' i' hd) →
        False := by
      intro r j r' s i s' i' hd h1 h2
      obtain ⟨n, b1, b2, b3⟩ := c1.wit _ _ _ _ h1
      obtain ⟨m, d1, d2, d3⟩ := c2.wit _ _ _ _ h2
      have e1 := (C25_decode p (UInt64.ofNat n) (by rw [ofNat62 (by omega)]; omega)
        (by rw [ofNat62 (by omega)]; omega)).1
      have e2 := (C25_decode p (UInt64.ofNat m) (by rw [ofNat62 (by omega)]; omega)
        (by rw [ofNat62 (by omega)]; omega)).1
      rw [← b3] at e1
      rw [← d3, e1] at e2
      have := congrArg UInt64.toNat (Except.ok.inj e2)
      rw [ofNat62 (by omega), ofNat62 (by omega)] at this
      omega
    have dp : ∀ r j r' s i s' i' hd, (firstWalk v c).1.get? r = some (.pub s i hd) →
        (Val.fields (firstWalks vs (firstWalk v c).2.1).1).get? (j :: r') = some (.pub s' i' hd) →
        False := by
      intro r j r' s i s' i' hd h1 h2
      obtain ⟨n, b1, b2, b3⟩ := c1.pub _ _ _ _ h1
      obtain ⟨m, d1, d2, d3⟩ := c2.pub _ _ _ _ h2
      have e1 := (C25_decode p (UInt64.ofNat n) (by rw [ofNat62 (by omega)]; omega)
        (by rw [ofNat62 (by omega)]; omega)).2
      have e2 := (C25_decode p (UInt64.ofNat m) (by rw [ofNat62 (by omega)]; omega)
        (by rw [ofNat62 (by omega)]; omega)).2
      rw [← b3] at e1
      rw [← d3, e1] at e2
      have := congrArg UInt64.toNat (Except.ok.inj e2)
      rw [ofNat62 (by omega), ofNat62 (by omega)] at this
      omega
    refine ⟨fun s i s' i' h' h1 h2 => ?_, fun s i s' i' h' h1 h2 => ?_⟩ <;>
      rcases P with _ | ⟨_ | j, r⟩ <;>
      simp [get?_nil, get?_cons_zero, get?_cons_succ] at h1 <;>
      rcases Q with _ | ⟨_ | j', r'⟩ <;>
      simp [get?_nil, get?_cons_zero, get?_cons_succ] at h2
    · rw [(ih1 r r').1 _ _ _ _ _ h1 h2]
    · exact absurd (dw _ _ _ _ _ _ _ _ h1 h2) id
    · exact absurd (dw _ _ _ _ _ _ _ _ h2 h1) id
    · have := (ih2 (j :: r) (j' :: r')).1 _ _ _ _ _ h1 h2
      simpa using this
    · rw [(ih1 r r').2 _ _ _ _ _ h1 h2]
    · exact absurd (dp _ _ _ _ _ _ _ _ h1 h2) id
    · exact absurd (dp _ _ _ _ _ _ _ _ h2 h1) id
    · have := (ih2 (j :: r) (j' :: r')).2 _ _ _ _ _ h1 h2
      simpa using this
end

/-- **C25** (fields).  In a compiled circuit two different fields of the same kind never decode to
the same index; the indices are those below the number of fields of the kind. -/
theorem C25_fields {p : Nat} (v : Val (ZMod p)) (hset : Settable v)
    (hw : (firstWalk v ⟨0, 0⟩).2.1.w ≤ 2 ^ 62) (hpw : (firstWalk v ⟨0, 0⟩).2.1.pw ≤ 2 ^ 62)
    (hwp : 2 * (firstWalk v ⟨0, 0⟩).2.1.w + 1 < p)
    (hpwp : 2 * (firstWalk v ⟨0, 0⟩).2.1.pw + 1 < p) :
    (∀ P s i h, (firstWalk v ⟨0, 0⟩).1.get? P = some (.wit s i h) →
      ∃ id, witnessToID h = .ok id ∧ id.toNat < (firstWalk v ⟨0, 0⟩).2.1.w ∧
        ∀ Q s' i' h', (firstWalk v ⟨0, 0⟩).1.get? Q = some (.wit s' i' h') →
          witnessToID h' = .ok id → Q = P) ∧
    (∀ P s i h, (firstWalk v ⟨0, 0⟩).1.get? P = some (.pub s i h) →
      ∃ id, witnessToID h = .ok id ∧ id.toNat < (firstWalk v ⟨0, 0⟩).2.1.pw ∧
        ∀ Q s' i' h', (firstWalk v ⟨0, 0⟩).1.get? Q = some (.pub s' i' h') →
          witnessToID h' = .ok id → Q = P) := by
  have cc := firstWalk_compiled v ⟨0, 0⟩ hset
  have inj := firstWalk_inj v ⟨0, 0⟩ hset hw hpw hwp hpwp
  constructor
  · intro P s i h hP
    obtain ⟨n, -, b2, b3⟩ := cc.wit _ _ _ _ hP
    have e : ∀ n, n < (firstWalk v ⟨0, 0⟩).2.1.w →
        witnessToID (idToWitness p (UInt64.ofNat n)) = .ok (UInt64.ofNat n) := fun n hn =>
      (C25_decode p (UInt64.ofNat n) (by rw [ofNat62 (by omega)]; omega)
        (by rw [ofNat62 (by omega)]; omega)).1
    refine ⟨UInt64.ofNat n, by rw [b3, e n b2], by rw [ofNat62 (by omega)]; exact b2, ?_⟩
    intro Q s' i' h' hQ hd
    obtain ⟨m, -, d2, d3⟩ := cc.wit _ _ _ _ hQ
    rw [d3, e m d2] at hd
    rw [Except.ok.inj hd] at d3
    rw [b3] at hP
    rw [d3] at hQ
    exact (inj Q P).1 _ _ _ _ _ hQ hP
  · intro P s i h hP
    obtain ⟨n, -, b2, b3⟩ := cc.pub _ _ _ _ hP
    have e : ∀ n, n < (firstWalk v ⟨0, 0⟩).2.1.pw →
        witnessToID (idToPublicWitness p (UInt64.ofNat n)) = .ok (UInt64.ofNat n) := fun n hn =>
      (C25_decode p (UInt64.ofNat n) (by rw [ofNat62 (by omega)]; omega)
        (by rw [ofNat62 (by omega)]; omega)).2
    refine ⟨UInt64.ofNat n, by rw [b3, e n b2], by rw [ofNat62 (by omega)]; exact b2, ?_⟩
    intro Q s' i' h' hQ hd
    obtain ⟨m, -, d2, d3⟩ := cc.pub _ _ _ _ hQ
    rw [d3, e m d2] at hd
    rw [Except.ok.inj hd] at d3
    rw [b3] at hP
    rw [d3] at hQ
    exact (inj Q P).2 _ _ _ _ _ hQ hP

/-! ## C26 -/

/-- A leaf of the assignment corresponds to a leaf of the compiled value. -/
theorem firstWalk_leaf {p : Nat} {F : Type} : ∀ (path : List Nat) (v : Val (ZMod p)) (a : Val F)
    (c : Cnt), SameShape v a →
    (∀ s i w, a.get? path = some (.wit s i w) →
      ∃ s' i' h, (firstWalk v c).1.get? path = some (.wit s' i' h)) ∧
    (∀ s i w, a.get? path = some (.pub s i w) →
      ∃ s' i' h, (firstWalk v c).1.get? path = some (.pub s' i' h)) := by
  intro path v a c hs
  induction hs generalizing path c with
  | pub =>
    constructor <;> intro s i w hp <;> cases path <;> simp [get?_nil, get?_pub] at hp
    simp only [firstWalk]; split_ifs <;> simp [get?_nil]
  | wit =>
    constructor <;> intro s i w hp <;> cases path <;> simp [get?_nil, get?_wit] at hp
    simp only [firstWalk]; split_ifs <;> simp [get?_nil]
  | @ptr v' a' _ ih =>
    constructor <;> intro s i w hp <;> rcases path with _ | ⟨_ | j, r⟩ <;>
      simp [get?_nil, get?_ptr_succ, get?_ptr] at hp <;> simp only [firstWalk, get?_ptr]
    · exact (ih r c).1 _ _ _ hp
    · exact (ih r c).2 _ _ _ hp
  | nilPtr =>
    constructor <;> intro s i w hp <;> cases path <;> simp [get?_nil, get?_nilPtr] at hp
  | nil =>
    constructor <;> intro s i w hp <;> cases path <;> simp [get?_nil, get?_fields_nil] at hp
  | @cons v' a' vs as _ _ ih1 ih2 =>
    constructor <;> intro s i w hp <;> rcases path with _ | ⟨_ | j, r⟩ <;>
      simp [get?_nil, get?_cons_zero, get?_cons_succ] at hp <;>
      simp only [firstWalk, firstWalks, get?_cons_zero, get?_cons_succ]
    · exact (ih1 r c).1 _ _ _ hp
    · have := (ih2 (j :: r) (firstWalk v' c).2.1).1 _ _ _ hp
      simpa only [firstWalk] using this
    · exact (ih1 r c).2 _ _ _ hp
    · have := (ih2 (j :: r) (firstWalk v' c).2.1).2 _ _ _ hp
      simpa only [firstWalk] using this
  | other =>
    constructor <;> intro s i w hp <;> cases path <;> simp [get?_nil, get?_other] at hp
  | noLeaf _ h =>
    exact ⟨fun s i w hp => ((h path s i w).2 hp).elim, fun s i w hp => ((h path s i w).1 hp).elim⟩

mutual
theorem walk_agree {F : Type} (rank : Nat) : ∀ (a : Val F) (st st' : WalkState F)
    (vs vs' : VWalkState F) (b b' : Bool),
    vs.pw = st.pw → vs.cnt = st.cnt.pw → prvWalk rank a st = .ok (st', b) →
    vrfWalk rank a vs = .ok (vs', b') → vs'.pw = st'.pw ∧ vs'.cnt = st'.cnt.pw
  | .pub s i w, st, st', vs, vs', b, b', q1, q2, r1, r2 => by
    cases i <;> simp [prvWalk, vrfWalk, goPanic] at r1 r2
    simp only [setIdx, q1, q2] at r1 r2
    split_ifs at r1 r2 <;> simp at r1 r2
    · obtain ⟨rfl, -⟩ := r1; obtain ⟨rfl, -⟩ := r2; simp
    · obtain ⟨rfl, -⟩ := r1; obtain ⟨rfl, -⟩ := r2; simp
  | .wit s i w, st, st', vs, vs', b, b', q1, q2, r1, r2 => by
    cases i <;> simp [prvWalk, vrfWalk, goPanic] at r1 r2
    simp only [setIdx] at r1
    obtain ⟨rfl, -⟩ := r2
    split_ifs at r1 <;> simp at r1
    · obtain ⟨rfl, -⟩ := r1; simp [q1, q2]
    · obtain ⟨rfl, -⟩ := r1; simp [q1, q2]
  | .ptr a, st, st', vs, vs', b, b', q1, q2, r1, r2 => by
    simp only [prvWalk, vrfWalk] at r1 r2
    cases h1 : prvWalk rank a st with
    | error e => rw [h1] at r1; simp at r1
    | ok x =>
      cases h2 : vrfWalk rank a vs with
      | error e => rw [h2] at r2; simp at r2
      | ok y =>
        rw [h1] at r1; rw [h2] at r2
        simp at r1 r2
        rw [← r1.1, ← r2.1]
        exact walk_agree rank a st x.1 vs y.1 x.2 y.2 q1 q2 h1 h2
  | .nilPtr, st, st', vs, vs', b, b', q1, q2, r1, r2 => by
    simp [prvWalk, vrfWalk] at r1 r2
    rw [← r1.1, ← r2.1]; exact ⟨q1, q2⟩
  | .fields as, st, st', vs, vs', b, b', q1, q2, r1, r2 => by
    simp only [prvWalk, vrfWalk] at r1 r2
    cases h1 : prvWalks rank as st with
    | error e => rw [h1] at r1; simp at r1
    | ok x =>
      cases h2 : vrfWalks rank as vs with
      | error e => rw [h2] at r2; simp at r2
      | ok y =>
        rw [h1] at r1; rw [h2] at r2
        simp at r1 r2
        rw [← r1.1, ← r2.1]
        exact walks_agree rank as st x vs y q1 q2 h1 h2
  | .other, st, st', vs, vs', b, b', q1, q2, r1, r2 => by
    simp [prvWalk, vrfWalk] at r1 r2
    rw [← r1.1, ← r2.1]; exact ⟨q1, q2⟩
theorem walks_agree {F : Type} (rank : Nat) : ∀ (as : List (Val F)) (st st' : WalkState F)
    (vs vs' : VWalkState F),
    vs.pw = st.pw → vs.cnt = st.cnt.pw → prvWalks rank as st = .ok st' →
    vrfWalks rank as vs = .ok vs' → vs'.pw = st'.pw ∧ vs'.cnt = st'.cnt.pw
  | [], st, st', vs, vs', q1, q2, r1, r2 => by
    simp [prvWalks, vrfWalks] at r1 r2
    rw [← r1, ← r2]; exact ⟨q1, q2⟩
  | a :: as, st, st', vs, vs', q1, q2, r1, r2 => by
    simp only [prvWalks, vrfWalks] at r1 r2
    cases h1 : prvWalk rank a st with
    | error e => rw [h1] at r1; simp at r1
    | ok x =>
      cases h2 : vrfWalk rank a vs with
      | error e => rw [h2] at r2; simp at r2
      | ok y =>
        rw [h1] at r1; rw [h2] at r2
        simp only [go_bind_ok] at r1 r2
        obtain ⟨t1, t2⟩ := walk_agree rank a st x.1 vs y.1 x.2 y.2 q1 q2 h1 h2
        exact walks_agree rank as x.1 st' y.1 vs' t1 t2 r1 r2
end

/-- **C26**.  Let `v` be the value `Compile` walked and `a` an assignment of the same shape whose
witnesses all have `rank` elements.  With at least as many slots as `Compile` counted, the
prover's walk and the verifier's walk succeed, and every vector of `a` ends up in the slot that the
handle stored by `Compile` at the same path decodes to.  The slots beyond those of the circuit's
fields are filled with zero vectors of length `rank`. -/
theorem C26_alignment {p : Nat} {F : Type} [Zero F] (rank : Nat) (v : Val (ZMod p)) (a : Val F)
    (hset : Settable v) (hshape : SameShape v a) (hfull : FullRank rank a)
    (pwCnt wCnt : Nat) (hw : (firstWalk v ⟨0, 0⟩).2.1.w ≤ wCnt)
    (hpw : (firstWalk v ⟨0, 0⟩).2.1.pw ≤ pwCnt)
    (h62 : wCnt ≤ 2 ^ 62 ∧ pwCnt ≤ 2 ^ 62) (hp : 2 * wCnt + 1 < p ∧ 2 * pwCnt + 1 < p) :
    ∃ pw sw vpw, prvCollect rank pwCnt wCnt a = .ok (pw, sw, false) ∧
      vrfCollect rank pwCnt a = .ok (vpw, false) ∧
      pw.length = pwCnt ∧ sw.length = wCnt ∧ vpw = pw ∧
      (∀ path s i w, a.get? path = some (.wit s i w) →
        ∃ s' i' h id, (firstWalk v ⟨0, 0⟩).1.get? path = some (.wit s' i' h) ∧
          witnessToID h = .ok id ∧ sw[id.toNat]? = some w) ∧
      (∀ path s i w, a.get? path = some (.pub s i w) →
        ∃ s' i' h id, (firstWalk v ⟨0, 0⟩).1.get? path = some (.pub s' i' h) ∧
          witnessToID h = .ok id ∧ pw[id.toNat]? = some w) ∧
      (∀ n, (firstWalk v ⟨0, 0⟩).2.1.w ≤ n → n < wCnt → sw[n]? = some (List.replicate rank 0)) ∧
      (∀ n, (firstWalk v ⟨0, 0⟩).2.1.pw ≤ n → n < pwCnt →
        pw[n]? = some (List.replicate rank 0)) := by
  obtain ⟨st, hst, fl⟩ := prvWalk_filled rank v a
    ⟨List.replicate pwCnt [], List.replicate wCnt [], ⟨0, 0⟩⟩ hset hshape hfull
    (by simpa using hw) (by simpa using hpw)
  obtain ⟨vst, hvst, vfl⟩ := vrfWalk_filled rank v a ⟨0, 0⟩
    ⟨List.replicate pwCnt [], 0⟩ rfl hset hshape hfull (by simpa using hpw)
  simp only at fl
  set cw := (firstWalk v ⟨0, 0⟩).2.1.w with hcw
  set cpw := (firstWalk v ⟨0, 0⟩).2.1.pw with hcpw
  have e1 : st.cnt.w = cw := by rw [fl.cnt]
  have e2 : st.cnt.pw = cpw := by rw [fl.cnt]
  have l1 : st.sw.length = wCnt := by rw [fl.swl]; simp
  have l2 : st.pw.length = pwCnt := by rw [fl.pwl]; simp
  have l3 : vst.pw.length = pwCnt := by rw [vfl.pwl]; simp
  have cc := firstWalk_compiled v ⟨0, 0⟩ hset
  -- every slot below the count is some leaf's slot
  refine ⟨_, _, _, by simp only [prvCollect, hst, go_bind_ok]; rfl,
    by simp only [vrfCollect, hvst, go_bind_ok]; rfl, ?_, ?_, ?_, ?_, ?_, ?_, ?_⟩
  · simp [e2, l2]; omega
  · simp [e1, l1]; omega
  · have hsame : vst.pw.take cpw = st.pw.take cpw := by
      rw [(walk_agree rank a _ st _ vst false false rfl rfl hst hvst).1]
    rw [vfl.cnt, e2, hsame]
  · intro path s i w hpath
    obtain ⟨s', i', h, hh⟩ := (firstWalk_leaf path v a ⟨0, 0⟩ hshape).1 s i w hpath
    obtain ⟨n, s1, i1, w1, -, b2, b3, b4, b5⟩ := fl.wit _ _ _ _ hh
    rw [b4] at hpath
    obtain ⟨-, -, rfl⟩ : s1 = s ∧ i1 = i ∧ w1 = w := by simpa using hpath
    refine ⟨s', i', h, UInt64.ofNat n, hh, ?_, ?_⟩
    · rw [b3]
      exact (C25_decode p (UInt64.ofNat n) (by rw [ofNat62 (by omega)]; omega)
        (by rw [ofNat62 (by omega)]; omega)).1
    · rw [ofNat62 (by omega), List.getElem?_append_left (by simp [e1, l1]; omega),
        List.getElem?_take, if_pos (by omega), b5]
  · intro path s i w hpath
    obtain ⟨s', i', h, hh⟩ := (firstWalk_leaf path v a ⟨0, 0⟩ hshape).2 s i w hpath
    obtain ⟨n, s1, i1, w1, -, b2, b3, b4, b5⟩ := fl.pub _ _ _ _ hh
    rw [b4] at hpath
    obtain ⟨-, -, rfl⟩ : s1 = s ∧ i1 = i ∧ w1 = w := by simpa using hpath
    refine ⟨s', i', h, UInt64.ofNat n, hh, ?_, ?_⟩
    · rw [b3]
      exact (C25_decode p (UInt64.ofNat n) (by rw [ofNat62 (by omega)]; omega)
        (by rw [ofNat62 (by omega)]; omega)).2
    · rw [ofNat62 (by omega), List.getElem?_append_left (by simp [e2, l2]; omega),
        List.getElem?_take, if_pos (by omega), b5]
  · intro n h1 h2
    rw [List.getElem?_append_right (by simp [e1, l1]; omega)]
    simp only [List.length_take, e1, l1, List.getElem?_replicate]
    rw [if_pos (by omega)]
  · intro n h1 h2
    rw [List.getElem?_append_right (by simp [e2, l2]; omega)]
    simp only [List.length_take, e2, l2, List.getElem?_replicate]
    rw [if_pos (by omega)]

/-- A circuit `&struct{ X PublicWitness; A Witness; Sub struct{ B Witness; C []PublicWitness } }`. -/
def circ26 (F : Type) (x a b c : List F) : Val F :=
  .ptr (.fields [.pub true true x, .wit true true a,
    .fields [.wit true true b, .fields [.pub true true c], .other], .nilPtr])

/-- The compiled value of the example: handles 2·id+2 for secrets, 2·id+3 for public ones. -/
example : (firstWalk (circ26 (ZMod 97) [] [] [] []) ⟨0, 0⟩).1 = circ26 (ZMod 97) [3] [2] [4] [5] ∧
    (firstWalk (circ26 (ZMod 97) [] [] [] []) ⟨0, 0⟩).2.1 = ⟨2, 2⟩ := by
  constructor <;> rfl

theorem circ26_leaf {F : Type} {x a b c : List F} {path : List Nat} {s i : Bool} {w : List F}
    (h : (circ26 F x a b c).get? path = some (.pub s i w) ∨
      (circ26 F x a b c).get? path = some (.wit s i w)) :
    s = true ∧ i = true ∧ (w = x ∨ w = a ∨ w = b ∨ w = c) := by
  unfold circ26 at h
  rcases path with _ | ⟨_ | j, _ | ⟨_ | _ | _ | _ | k, _ | ⟨_ | _ | _ | l, _ | ⟨_ | m, _ | _⟩⟩⟩⟩ <;>
    simp [get?_nil, get?_ptr, get?_ptr_succ, get?_cons_zero, get?_cons_succ, get?_fields_nil,
      get?_pub, get?_wit, get?_other, get?_nilPtr] at h <;> tauto

/-- The hypotheses of `C26_alignment` are met by the example. -/
example (x a b c : List (ZMod 97)) (hx : x.length = 8) (ha : a.length = 8) (hb : b.length = 8)
    (hc : c.length = 8) :
    Settable (circ26 (ZMod 97) [] [] [] []) ∧
    SameShape (circ26 (ZMod 97) [] [] [] []) (circ26 (ZMod 97) x a b c) ∧
    FullRank 8 (circ26 (ZMod 97) x a b c) := by
  refine ⟨fun path s i w h => (circ26_leaf h).1, ?_, fun path s i w h => ?_⟩
  · exact .ptr (.cons .pub (.cons .wit (.cons (.cons .wit (.cons (.cons .pub .nil)
      (.cons .other .nil))) (.cons .nilPtr .nil))))
  · obtain ⟨-, h2, rfl | rfl | rfl | rfl⟩ := circ26_leaf h <;> exact ⟨h2, by assumption⟩

/-! ## C27 -/

/-- **C27, refuted**.  `Compile` only accepts pointers, and for a pointer neither the prover's nor
the verifier's walk ever returns an error, whatever the lengths of the witnesses inside. -/
theorem C27_refuted {F : Type} [Zero F] (rank pwCnt wCnt : Nat) (v : Val F) :
    (∀ pw sw err, prvCollect rank pwCnt wCnt (.ptr v) = .ok (pw, sw, err) → err = false) ∧
    (∀ pw err, vrfCollect rank pwCnt (.ptr v) = .ok (pw, err) → err = false) := by
  constructor
  · intro pw sw err h
    simp only [prvCollect, prvWalk] at h
    cases h1 : prvWalk rank v ⟨List.replicate pwCnt [], List.replicate wCnt [], ⟨0, 0⟩⟩ with
    | error e => rw [h1] at h; simp at h
    | ok x => rw [h1] at h; simp at h; exact h.2.2
  · intro pw err h
    simp only [vrfCollect, vrfWalk] at h
    cases h1 : vrfWalk rank v ⟨List.replicate pwCnt [], 0⟩ with
    | error e => rw [h1] at h; simp at h
    | ok x => rw [h1] at h; simp at h; exact h.2

/-- The run behind the refutation: `&struct{ X, Y PublicWitness; A, B Witness }` at rank 8 with a
short `X` and a short `A`.  No error; the vector assigned to `Y` (to `B`) sits in the slot of `X`
(of `A`), and the slot of `Y` (of `B`) holds zeros. -/
theorem C27_shift (y b : List (ZMod 97)) (hy : y.length = 8) (hb : b.length = 8) :
    prvCollect 8 2 2 (.ptr (.fields [.pub true true [1], .pub true true y, .wit true true [1],
      .wit true true b])) =
      .ok ([y, List.replicate 8 0], [b, List.replicate 8 0], false) ∧
    vrfCollect 8 2 (.ptr (.fields [.pub true true [1], .pub true true y, .wit true true [1],
      .wit true true b])) = .ok ([y, List.replicate 8 0], false) := by
  simp [prvCollect, prvWalk, prvWalks, vrfCollect, vrfWalk, vrfWalks, setIdx, hy, hb,
    List.replicate_succ]

/-- **C27, partial**.  Missing from the full claim: the error has to reach `Prove` and `Verify`.
What holds is that the innermost call notices: a walk of a leaf by itself reports an error exactly
when the length is not the compiled rank. -/
theorem C27_partial {F : Type} (rank : Nat) (s : Bool) (w : List F) (st : WalkState F)
    (vst : VWalkState F) (hpw : st.cnt.pw < st.pw.length) (hw : st.cnt.w < st.sw.length)
    (hv : vst.cnt < vst.pw.length) :
    (∃ st', prvWalk rank (.pub s true w) st = .ok (st', decide (w.length ≠ rank))) ∧
    (∃ st', prvWalk rank (.wit s true w) st = .ok (st', decide (w.length ≠ rank))) ∧
    (∃ st', vrfWalk rank (.pub s true w) vst = .ok (st', decide (w.length ≠ rank))) := by
  by_cases h : w.length = rank <;> simp [prvWalk, vrfWalk, setIdx, hpw, hw, hv, h]

/-- Unexported witness fields: `Compile` skips them without an error, `Prove` panics. -/
theorem C26_unexported (p rank pwCnt wCnt : Nat) (w : List (ZMod p)) :
    firstWalk (.ptr (.fields [.wit false false w])) ⟨0, 0⟩ =
      (.ptr (.fields [.wit false false w]), ⟨0, 0⟩, false) ∧
    prvCollect rank pwCnt wCnt (.ptr (.fields [.wit false false w])) = .error .panic := by
  simp [firstWalk, firstWalks, prvCollect, prvWalk, prvWalks, goPanic]

end Ringo
