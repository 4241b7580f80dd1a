import Verif.Proof.FieldText
import Verif.Props.FieldSqrt
import Verif.Props.FieldInv
import Verif.Props.Moduli

/-!
# C117: field elements as text

`Text`, `String`, `SetString`, `MarshalJSON`, `UnmarshalJSON` and `Vector.String`.  What a numeral and an integer
literal are is in `Verif.Spec.FieldText`.
-/

namespace Ringo
open FieldPkg
variable {P : FieldPkg}

/-- **C117**, `Text(base)`, for every base from 2 to 36: the least nonnegative representative in base `base`; but in
base 10, if the negative is between 1 and 65535, a minus sign and the negative. -/
theorem C117_text (h : P.Good) {z : List Nat} {a : ZMod P.p} (hz : MontForm P.p P.n z a) {b : Nat}
    (hb : 2 ≤ b) (hb' : b ≤ 36) : ∃ t, P.text b z = some t ∧
      if b = 10 ∧ 1 ≤ (-a).val ∧ (-a).val ≤ 65535 then ∃ t', t = '-' :: t' ∧ Shown 10 t' (-a).val
      else Shown b t a.val := by
  have := Fact.mk h.prime
  obtain ⟨n1, n2⟩ := C104_uint64 h (mont_neg h hz)
  obtain ⟨z1, z2⟩ := C104_uint64 h hz
  obtain ⟨e, l, w⟩ := mont_fromMont h hz
  simp only [isUint64, uint64, bits] at n1 n2 z1 z2
  unfold text
  rw [if_neg (by omega)]
  dsimp only
  by_cases hc : b = 10 ∧ 1 ≤ (-a).val ∧ (-a).val ≤ 65535
  · simp only [if_pos hc]
    have hl : (-a).val < 2 ^ 64 := by omega
    rw [Nat.mod_eq_of_lt hl] at n2
    rw [if_pos ⟨hc.1, n1.2 hl, by omega, by omega⟩]
    refine ⟨_, rfl, _, rfl, ?_⟩
    rw [n2, hc.1]
    exact shown_formatNat (by omega) (by omega) _
  · simp only [if_neg hc]
    rw [if_neg]
    · by_cases hf : fitsOneWord (P.fromMont z) = true
      · rw [if_pos hf]
        refine ⟨_, rfl, ?_⟩
        rw [z2, Nat.mod_eq_of_lt (z1.1 hf)]
        exact shown_formatNat hb hb' _
      · rw [if_neg hf]
        refine ⟨_, rfl, ?_⟩
        rw [wordBytes_val w, e]
        exact shown_formatNat hb hb' _
    · rintro ⟨h1, h2, h3, h4⟩
      rw [n2, Nat.mod_eq_of_lt (n1.1 h2)] at h3 h4
      exact hc ⟨h1, by omega, h3⟩

/-- **C117**, `Text` panics for all other bases. -/
theorem C117_text_panic (z : List Nat) {b : Nat} (hb : b < 2 ∨ 36 < b) : P.text b z = none := by
  rw [text, if_pos hb]

/-- `String`, as an integer literal with a sign. -/
theorem toStr_lit (h : P.Good) {z : List Nat} {a : ZMod P.p} (hz : MontForm P.p P.n z a) :
    ∃ v : Int, SignedLit (P.toStr z) v ∧ (v : ZMod P.p) = a := by
  have := Fact.mk h.prime
  obtain ⟨t, ht, hs⟩ := C117_text h hz (b := 10) (by omega) (by omega)
  rw [toStr, ht, Option.getD_some]
  split_ifs at hs with hc
  · obtain ⟨t', rfl, hs⟩ := hs
    refine ⟨_, .minus hs.lit, ?_⟩
    rw [Int.cast_neg, Int.cast_natCast, ZMod.natCast_zmod_val, neg_neg]
  · refine ⟨_, .plain hs.lit, ?_⟩
    rw [Int.cast_natCast, ZMod.natCast_zmod_val]

/-- **C117**, `SetString(s)`: succeeds exactly if `s` is an integer literal of Go with an optional sign, and then
sets the residue of the integer; the words are reduced. -/
theorem C117_setString (h : P.Good) (s : List Char) :
    (∀ v, SignedLit s v → ∃ z, P.setString s = some z ∧ MontForm P.p P.n z (v : ZMod P.p)) ∧
      (∀ z, P.setString s = some z → ∃ v, SignedLit s v) := by
  refine ⟨fun v hv => ⟨_, ?_, mont_setBigInt h v⟩, fun z hz => ?_⟩
  · rw [setString, (bigSetString_iff s v).2 hv, Option.map_some]
  · rw [setString, Option.map_eq_some_iff] at hz
    obtain ⟨v, hv, -⟩ := hz
    exact ⟨v, (bigSetString_iff s v).1 hv⟩

theorem setString_lit (h : P.Good) {s : List Char} {v : Int} (hs : SignedLit s v) {z : List Nat}
    {a : ZMod P.p} (hz : MontForm P.p P.n z a) (e : (v : ZMod P.p) = a) : P.setString s = some z := by
  obtain ⟨z', h1, h2⟩ := (C117_setString h s).1 v hs
  rw [h1, (MontForm_inj h h2 hz).2 e]

/-- **C117**: `SetString` reads what `String` and `Text(10)` have written. -/
theorem C117_roundTrip (h : P.Good) {z : List Nat} {a : ZMod P.p} (hz : MontForm P.p P.n z a) :
    P.setString (P.toStr z) = some z ∧ ∀ t, P.text 10 z = some t → P.setString t = some z := by
  obtain ⟨v, hv, e⟩ := toStr_lit h hz
  refine ⟨setString_lit h hv hz e, fun t ht => ?_⟩
  rw [toStr, ht, Option.getD_some] at hv
  exact setString_lit h hv hz e

/-- **C117**: `SetString` reads what `Text(b)` has written if the prefix of the base is put in front. -/
theorem C117_prefix (h : P.Good) {z : List Nat} {a : ZMod P.p} (hz : MontForm P.p P.n z a) {p : List Char}
    {b : Nat} (hp : LitPrefix p b) (t : List Char) (ht : P.text b z = some t) :
    P.setString (p ++ t) = some z := by
  have := Fact.mk h.prime
  have hb : 2 ≤ b ∧ b ≤ 16 ∧ b ≠ 10 := by cases hp <;> omega
  obtain ⟨t', ht', hs⟩ := C117_text h hz hb.1 (by omega)
  rw [ht, Option.some.injEq] at ht'
  subst ht'
  rw [if_neg (by omega)] at hs
  refine setString_lit h (.plain (hs.based hb.2.1 hp)) hz ?_
  rw [Int.cast_natCast, ZMod.natCast_zmod_val]

/-- **C117**, without the prefix this is false in every base but 10: what `Text(b)` writes for the element `b` is
read as the element `10`. -/
theorem C117_refuted_base (h : P.Good) (hp : 36 < P.p) {b : Nat} (hb : 2 ≤ b) (hb' : b ≤ 36)
    (hb10 : b ≠ 10) : ∃ z z' t, MontForm P.p P.n z (b : ZMod P.p) ∧ MontForm P.p P.n z' (10 : ZMod P.p) ∧
      P.text b z = some t ∧ P.setString t = some z' ∧ z ≠ z' := by
  have := Fact.mk h.prime
  have hz := mont_setBigInt h (b : Int)
  have hz' := mont_setBigInt h (10 : Int)
  rw [Int.cast_natCast] at hz
  have e10 : ((10 : Int) : ZMod P.p) = ((10 : Nat) : ZMod P.p) := by push_cast; rfl
  obtain ⟨t, ht, hs⟩ := C117_text h hz hb hb'
  rw [if_neg (by omega), ZMod.val_natCast, Nat.mod_eq_of_lt (by omega)] at hs
  have et : t = ['1', '0'] := by
    have e : P.text b (P.setBigInt b) = some (formatNat b b) := by
      obtain ⟨z1, z2⟩ := C104_uint64 h hz
      simp only [isUint64, uint64, bits] at z1 z2
      have hv : ((b : ZMod P.p)).val = b := by rw [ZMod.val_natCast, Nat.mod_eq_of_lt (by omega)]
      rw [hv] at z1 z2
      rw [text, if_neg (by omega)]
      dsimp only
      rw [if_neg (by tauto), if_pos (z1.2 (by omega)), z2, Nat.mod_eq_of_lt (by omega)]
    rw [e, Option.some.injEq] at ht
    rw [← ht, formatNat_ge hb le_rfl, Nat.div_self (by omega), Nat.mod_self, formatNat_lt (by omega)]
    rfl
  subst et
  refine ⟨_, P.setBigInt 10, _, hz, ?_, ht, ?_, ?_⟩
  · simpa using hz'
  · have : bigSetString ['1', '0'] = some 10 := by decide
    rw [setString, this, Option.map_some]
  · intro he
    rw [← he] at hz'
    have e := (MontForm_inj h hz hz').1 rfl
    rw [e10] at e
    have := congrArg ZMod.val e
    rw [ZMod.val_natCast, ZMod.val_natCast, Nat.mod_eq_of_lt (by omega), Nat.mod_eq_of_lt (by omega)] at this
    exact hb10 this

/-! ### JSON -/

theorem Shown.chars {b : Nat} {s : List Char} {v : Nat} (h : Shown b s v) :
    ∀ c ∈ s, c ∈ "0123456789abcdefghijklmnopqrstuvwxyz".toList := by
  obtain ⟨ds, _, _, _, _, h5⟩ := h
  intro c hc
  have : some c ∈ s.map some := List.mem_map_of_mem hc
  rw [h5, List.mem_map] at this
  obtain ⟨d, _, e⟩ := this
  exact List.mem_of_getElem? e

theorem Shown.length_le {b : Nat} {s : List Char} {v : Nat} (h : Shown b s v) :
    s ≠ [] ∧ (s.length = 1 ∨ b ^ (s.length - 1) ≤ v) := by
  obtain ⟨ds, h1, h2, h3, h4, h5⟩ := h
  have hl : s.length = ds.length := by simpa using congrArg List.length h5
  refine ⟨fun hs => h1 (List.length_eq_zero_iff.1 (by rw [← hl, hs]; rfl)), ?_⟩
  rw [hl]
  cases ds with
  | nil => exact (h1 rfl).elim
  | cons d ds =>
    by_cases hd : d = 0
    · subst hd
      have := h3 rfl
      rw [this]
      exact Or.inl rfl
    · right
      rw [← h4, List.reverse_cons, Nat.ofDigits_append, Nat.ofDigits_singleton, List.length_reverse,
        List.length_cons, Nat.add_sub_cancel]
      exact le_trans (Nat.le_mul_of_pos_right _ (by omega)) (Nat.le_add_left _ _)

theorem toStr_shape (h : P.Good) {z : List Nat} {a : ZMod P.p} (hz : MontForm P.p P.n z a) :
    (∃ t, P.toStr z = '-' :: t ∧ Shown 10 t (-a).val ∧ (-a).val ≤ 65535) ∨
      Shown 10 (P.toStr z) a.val := by
  obtain ⟨t, ht, hs⟩ := C117_text h hz (b := 10) (by omega) (by omega)
  have e : P.toStr z = t := by rw [toStr, ht, Option.getD_some]
  rw [e]
  split_ifs at hs with hc
  · obtain ⟨t', rfl, hs⟩ := hs
    exact Or.inl ⟨t', rfl, hs, hc.2.2⟩
  · exact Or.inr hs

theorem toStr_chars (h : P.Good) {z : List Nat} {a : ZMod P.p} (hz : MontForm P.p P.n z a) :
    P.toStr z ≠ [] ∧ '"' ∉ P.toStr z ∧ ',' ∉ P.toStr z := by
  rcases toStr_shape h hz with ⟨t, e, hs, _⟩ | hs
  · rw [e]
    refine ⟨by simp, fun hm => ?_, fun hm => ?_⟩
    · rcases List.mem_cons.1 hm with hm | hm
      · exact absurd hm (by decide)
      · exact absurd (hs.chars _ hm) (by decide)
    · rcases List.mem_cons.1 hm with hm | hm
      · exact absurd hm (by decide)
      · exact absurd (hs.chars _ hm) (by decide)
  · exact ⟨hs.length_le.1, fun hm => absurd (hs.chars _ hm) (by decide),
      fun hm => absurd (hs.chars _ hm) (by decide)⟩

/-- **C117**, `MarshalJSON`: the decimal text, as a JSON number if it is short - then the integer is below `10^15` in
absolute value, so that it is exact also in a reader that uses floating-point numbers - and as a JSON string
otherwise. -/
theorem C117_marshalJSON (h : P.Good) {z : List Nat} {a : ZMod P.p} (hz : MontForm P.p P.n z a) :
    ∃ v : Int, SignedLit (P.toStr z) v ∧ (v : ZMod P.p) = a ∧
      (P.marshalJSON (some z) = P.toStr z ∧ |v| < 10 ^ 15 ∨
        P.marshalJSON (some z) = '"' :: P.toStr z ++ ['"']) := by
  have := Fact.mk h.prime
  have key : ∀ {t : List Char} {v : Nat}, Shown 10 t v → t.length ≤ 15 → v < 10 ^ 15 := by
    intro t v hs hl
    obtain ⟨ds, _, h2, _, h4, h5⟩ := hs
    have hl' : t.length = ds.length := by simpa using congrArg List.length h5
    rw [← h4]
    refine lt_of_lt_of_le (Nat.ofDigits_lt_base_pow_length (by omega) fun x hx => h2 x (by simpa using hx)) ?_
    rw [List.length_reverse]
    exact Nat.pow_le_pow_right (by omega) (by omega)
  rcases toStr_shape h hz with ⟨t, e, hs, hle⟩ | hs
  · refine ⟨_, by rw [e]; exact .minus hs.lit, ?_, ?_⟩
    · rw [Int.cast_neg, Int.cast_natCast, ZMod.natCast_zmod_val, neg_neg]
    · simp only [marshalJSON]
      split_ifs with hl
      · refine Or.inl ⟨rfl, ?_⟩
        rw [abs_neg, Nat.abs_cast]
        have : (-a).val < 10 ^ 15 := by omega
        exact_mod_cast this
      · exact Or.inr rfl
  · refine ⟨_, .plain hs.lit, ?_, ?_⟩
    · rw [Int.cast_natCast, ZMod.natCast_zmod_val]
    · simp only [marshalJSON]
      split_ifs with hl
      · refine Or.inl ⟨rfl, ?_⟩
        rw [Nat.abs_cast]
        exact_mod_cast key hs hl
      · exact Or.inr rfl

/-- **C117**, `UnmarshalJSON`: `s` without one quotation mark at its beginning and one at its end, if there are any,
is read as by `SetString`; longer input than `3 Bits` is refused. -/
theorem C117_unmarshalJSON (h : P.Good) (bits : Nat) (s : List Char) (z : List Nat) :
    P.unmarshalJSON bits s = some z ↔ s.length ≤ 3 * bits ∧ ∃ t v, SignedLit t v ∧
      MontForm P.p P.n z (v : ZMod P.p) ∧ (s = t ∨ s = '"' :: t ∨ s = t ++ ['"'] ∨ s = '"' :: t ++ ['"']) := by
  have hhead : ∀ {t v}, SignedLit t v → t ≠ [] ∧ t.head? ≠ some '"' ∧ t.getLast? ≠ some '"' := by
    have hd : ∀ {c d}, DigitChar c d → c ≠ '"' := by
      rintro c d hd rfl
      have := (digitChar_val hd).2
      have e : digitVal '"' = 63 := by decide
      rw [e] at this
      subst this
      rcases hd with h | h <;> cases h
    have hnum : ∀ {b t ds}, Numeral b t ds → t ≠ [] ∧ t.getLast? ≠ some '"' := by
      intro b t ds hn
      induction hn with
      | digit hc _ => simpa using hd hc
      | cons hc _ _ ih =>
        refine ⟨by simp, ?_⟩
        rw [List.getLast?_cons_of_ne_nil ih.1]
        exact ih.2
      | sep hc _ _ ih =>
        refine ⟨by simp, ?_⟩
        rw [List.getLast?_cons_of_ne_nil (by simp), List.getLast?_cons_of_ne_nil ih.1]
        exact ih.2
    have hlit : ∀ {t v}, IntLit t v → t ≠ [] ∧ t.head? ≠ some '"' ∧ t.getLast? ≠ some '"' := by
      intro t v hl
      obtain ⟨c, s', e, hc⟩ := hl.head
      refine ⟨by rw [e]; simp, ?_, ?_⟩
      · rw [e, List.head?_cons, ne_eq, Option.some.injEq]
        rintro rfl
        exact absurd hc.1 (by decide)
      · cases hl with
        | zero => decide
        | decimal hn _ => exact (hnum hn).2
        | based hp hn =>
          rw [List.getLast?_append_of_ne_nil _ (hnum hn).1]
          exact (hnum hn).2
        | basedSep hp hn =>
          rw [List.getLast?_append_of_ne_nil _ (by simp), List.getLast?_cons_of_ne_nil (hnum hn).1]
          exact (hnum hn).2
    intro t v hs
    cases hs with
    | plain hl => exact hlit hl
    | plus hl =>
      refine ⟨by simp, by simp, ?_⟩
      rw [List.getLast?_cons_of_ne_nil (hlit hl).1]
      exact (hlit hl).2.2
    | minus hl =>
      refine ⟨by simp, by simp, ?_⟩
      rw [List.getLast?_cons_of_ne_nil (hlit hl).1]
      exact (hlit hl).2.2
  have hset : ∀ t, ((bigSetString t).map P.setBigInt = some z) ↔
      ∃ v, SignedLit t v ∧ MontForm P.p P.n z (v : ZMod P.p) := by
    intro t
    rw [Option.map_eq_some_iff]
    constructor
    · rintro ⟨v, h1, rfl⟩
      exact ⟨v, (bigSetString_iff t v).1 h1, mont_setBigInt h v⟩
    · rintro ⟨v, h1, h2⟩
      exact ⟨v, (bigSetString_iff t v).2 h1, (MontForm_inj h (mont_setBigInt h v) h2).2 rfl⟩
  rw [unmarshalJSON]
  by_cases hl : s.length > bits * 3
  · rw [if_pos hl]
    constructor
    · intro h; cases h
    · rintro ⟨h, _⟩; omega
  · rw [if_neg hl]
    dsimp only
    constructor
    · intro he
      rw [hset] at he
      obtain ⟨v, h1, h2⟩ := he
      refine ⟨by omega, _, v, h1, h2, ?_⟩
      have hq : ∀ {u : List Char}, u.head? = some '"' → u = '"' :: u.tail := by
        intro u hu
        cases u with
        | nil => cases hu
        | cons c u => simp at hu; subst hu; rfl
      have hr : ∀ {u : List Char}, u.getLast? = some '"' → u = u.dropLast ++ ['"'] := by
        intro u hu
        rw [List.getLast?_eq_some_iff] at hu
        obtain ⟨ys, rfl⟩ := hu
        simp
      by_cases g1 : s.head? = some '"'
      · rw [if_pos g1]
        by_cases g2 : s.tail.getLast? = some '"'
        · rw [if_pos g2]
          right; right; right
          rw [List.cons_append, ← hr g2]
          exact hq g1
        · rw [if_neg g2]
          exact Or.inr (Or.inl (hq g1))
      · rw [if_neg g1]
        by_cases g2 : s.getLast? = some '"'
        · rw [if_pos g2]
          exact Or.inr (Or.inr (Or.inl (hr g2)))
        · rw [if_neg g2]
          exact Or.inl rfl
    · rintro ⟨-, t, v, h1, h2, hs⟩
      obtain ⟨n0, n1, n2⟩ := hhead h1
      have ht := (hset t).2 ⟨v, h1, h2⟩
      have hne : (t ++ ['"']).head? ≠ some '"' := by
        rw [List.head?_append_of_ne_nil _ n0]; exact n1
      rcases hs with rfl | rfl | rfl | rfl
      · rw [if_neg n1, if_neg n2]; exact ht
      · have e : (if ('"' :: t).head? = some '"' then ('"' :: t).tail else '"' :: t) = t := if_pos rfl
        rw [e, if_neg n2]; exact ht
      · rw [if_neg hne, if_pos (by simp), List.dropLast_concat]; exact ht
      · have e : (if ('"' :: t ++ ['"']).head? = some '"' then ('"' :: t ++ ['"']).tail
            else '"' :: t ++ ['"']) = t ++ ['"'] := if_pos rfl
        rw [e, if_pos (by simp), List.dropLast_concat]
        exact ht

/-- **C117**: `UnmarshalJSON` reads what `MarshalJSON` has written. -/
theorem C117_json (h : P.Good) {bits : Nat} (hb : P.BitsGood bits) {z : List Nat} {a : ZMod P.p}
    (hz : MontForm P.p P.n z a) : P.unmarshalJSON bits (P.marshalJSON (some z)) = some z := by
  have := Fact.mk h.prime
  obtain ⟨v, hv, e, hs⟩ := C117_marshalJSON h hz
  have hbits : 2 ≤ bits := by
    have h1 := hb.le
    have h2 := h.prime.two_le
    have h3 := h.odd
    by_contra hlt
    have : 2 ^ bits ≤ 2 ^ 1 := Nat.pow_le_pow_right (by omega) (by omega)
    omega
  have hlen : (P.toStr z).length ≤ bits + 1 := by
    have key : ∀ {t : List Char} {x : ZMod P.p}, Shown 10 t x.val → t.length ≤ bits := by
      intro t x hs
      rcases hs.length_le.2 with h1 | h1
      · omega
      · have h2 := lt_of_lt_of_le (ZMod.val_lt x) hb.le
        have h3 : 2 ^ (t.length - 1) ≤ 10 ^ (t.length - 1) := Nat.pow_le_pow_left (by omega) _
        have h4 := (Nat.pow_lt_pow_iff_right (a := 2) (by omega)).1 (lt_of_le_of_lt (h3.trans h1) h2)
        omega
    rcases toStr_shape h hz with ⟨t, e, hs, _⟩ | hs
    · rw [e, List.length_cons]
      have := key hs
      omega
    · have := key hs
      omega
  rw [C117_unmarshalJSON h]
  rcases hs with ⟨hs, -⟩ | hs
  · exact ⟨by rw [hs]; omega, _, v, hv, e ▸ hz, Or.inl hs⟩
  · refine ⟨?_, _, v, hv, e ▸ hz, Or.inr (Or.inr (Or.inr hs))⟩
    rw [hs]
    simp only [List.length_append, List.length_cons, List.length_nil]
    omega

/-- **C117**: the nil pointer is written as `null`, which cannot be read back: `UnmarshalJSON` refuses it. -/
theorem C117_refuted_null (bits : Nat) :
    P.marshalJSON none = "null".toList ∧ P.unmarshalJSON bits "null".toList = none := by
  refine ⟨rfl, ?_⟩
  have e : bigSetString "null".toList = none := by decide
  rw [unmarshalJSON]
  by_cases hl : "null".toList.length > bits * 3
  · rw [if_pos hl]
  · rw [if_neg hl]
    change (bigSetString "null".toList).map _ = none
    rw [e]
    rfl

/-! ### Vectors -/

theorem vecStrLoop_eq (len : Nat) : ∀ (v : List (List Nat)) (i : Nat), i + v.length = len →
    P.vecStrLoop len i v = List.intercalate [','] (v.map P.toStr)
  | [], _, _ => rfl
  | [z], i, h => by
    simp only [List.length_singleton] at h
    rw [vecStrLoop, vecStrLoop, if_neg (by omega)]
    simp [List.intercalate]
  | z :: z' :: v, i, h => by
    simp only [List.length_cons] at h
    rw [vecStrLoop, if_pos (by omega), vecStrLoop_eq len (z' :: v) (i + 1) (by simp only [List.length_cons]; omega)]
    simp [List.intercalate]

/-- **C117**, `Vector.String`: the elements between brackets, with commas between them; vectors with the same text
are equal. -/
theorem C117_vector (h : P.Good) (v : List (List Nat)) :
    P.vecStr v = ['['] ++ List.intercalate [','] (v.map P.toStr) ++ [']'] ∧
      ∀ w, (∀ z ∈ v, ∃ a, MontForm P.p P.n z a) → (∀ z ∈ w, ∃ a, MontForm P.p P.n z a) →
        P.vecStr v = P.vecStr w → v = w := by
  have e : ∀ v, P.vecStr v = ['['] ++ List.intercalate [','] (v.map P.toStr) ++ [']'] := fun v => by
    rw [vecStr, vecStrLoop_eq _ v 0 (by omega)]; rfl
  refine ⟨e v, fun w hv hw hvw => ?_⟩
  rw [e, e, List.append_left_inj, List.append_right_inj] at hvw
  have hinj : ∀ {z z' : List Nat}, (∃ a, MontForm P.p P.n z a) → (∃ a, MontForm P.p P.n z' a) →
      P.toStr z = P.toStr z' → z = z' := by
    rintro z z' ⟨a, hz⟩ ⟨a', hz'⟩ he
    have h1 := (C117_roundTrip h hz).1
    rw [he, (C117_roundTrip h hz').1] at h1
    exact (Option.some.inj h1).symm
  have htw : ∀ {z : List Nat} (r : List Char), (∃ a, MontForm P.p P.n z a) →
      (P.toStr z ++ ',' :: r).takeWhile (· ≠ ',') = P.toStr z := by
    rintro z r ⟨a, hz⟩
    have hm := (toStr_chars h hz).2.2
    have hall : ∀ c ∈ P.toStr z, decide (c ≠ ',') = true := by
      intro c hc
      rw [decide_eq_true_eq]
      rintro rfl
      exact hm hc
    rw [List.takeWhile_append_of_pos hall]
    simp
  have hcons : ∀ (z z' : List Nat) (v : List (List Nat)),
      List.intercalate [','] ((z :: z' :: v).map P.toStr) =
        P.toStr z ++ ',' :: List.intercalate [','] ((z' :: v).map P.toStr) := by
    intro z z' v
    simp [List.intercalate]
  have hone : ∀ z : List Nat, List.intercalate [','] ([z].map P.toStr) = P.toStr z := by
    intro z
    simp [List.intercalate]
  clear e
  induction v generalizing w with
  | nil =>
    cases w with
    | nil => rfl
    | cons z w =>
      exfalso
      obtain ⟨a, hz⟩ := hw z (by simp)
      have hne := (toStr_chars h hz).1
      cases w with
      | nil => rw [hone] at hvw; exact hne hvw.symm
      | cons z' w => rw [hcons] at hvw; simp [List.intercalate] at hvw
  | cons z v ih =>
    have kz := hv z (by simp)
    cases w with
    | nil =>
      exfalso
      obtain ⟨a, hz⟩ := kz
      have hne := (toStr_chars h hz).1
      cases v with
      | nil => rw [hone] at hvw; exact hne hvw
      | cons z' w => rw [hcons] at hvw; simp [List.intercalate] at hvw
    | cons y w =>
      have ky := hw y (by simp)
      cases v with
      | nil =>
        cases w with
        | nil =>
          rw [hone, hone] at hvw
          rw [hinj kz ky hvw]
        | cons y' w =>
          exfalso
          rw [hone, hcons] at hvw
          obtain ⟨a, hz⟩ := kz
          exact (toStr_chars h hz).2.2 (by rw [hvw]; simp)
      | cons z' v =>
        cases w with
        | nil =>
          exfalso
          rw [hone, hcons] at hvw
          obtain ⟨a, hz⟩ := ky
          exact (toStr_chars h hz).2.2 (by rw [← hvw]; simp)
        | cons y' w =>
          rw [hcons, hcons] at hvw
          have h1 : P.toStr z = P.toStr y := by
            rw [← htw _ kz, hvw, htw _ ky]
          rw [h1, List.append_right_inj, List.cons.injEq] at hvw
          rw [hinj kz ky h1, ih (y' :: w) (fun x hx => hv x (List.mem_cons_of_mem _ hx))
            (fun x hx => hw x (List.mem_cons_of_mem _ hx)) hvw.2]

/-! ### Concrete cases -/

/-- The package of Jindo: `-1`, the largest element with a minus sign and the next one, an element of more than one
word in base 16, a literal with prefix and underscores, JSON with one quotation mark. -/
theorem C117_case : jindoPkg.Good ∧ jindoPkg.BitsGood jindoBits ∧
    jindoPkg.toStr (jindoPkg.setBigInt (-1)) = "-1".toList ∧
    jindoPkg.toStr (jindoPkg.setBigInt (-65535)) = "-65535".toList ∧
    (jindoPkg.toStr (jindoPkg.setBigInt (-65536))).length = 77 ∧
    jindoPkg.text 16 (jindoPkg.setBigInt (2 ^ 64 + 171)) = some "100000000000000ab".toList ∧
    jindoPkg.setString "-0x_1F".toList = some (jindoPkg.setBigInt (-31)) ∧
    jindoPkg.setString "0b".toList = none ∧ jindoPkg.setString "1__0".toList = none ∧
    jindoPkg.setString "08".toList = none ∧
    jindoPkg.marshalJSON (some (jindoPkg.setBigInt (10 ^ 15))) = "\"1000000000000000\"".toList ∧
    jindoPkg.unmarshalJSON jindoBits "\"5".toList = some (jindoPkg.setBigInt 5) ∧
    jindoPkg.vecStr [jindoPkg.setBigInt 7, jindoPkg.setBigInt (-2)] = "[7,-2]".toList := by
  refine ⟨C79_jindo.1, jindo_bits, ?_⟩
  decide +kernel

/-- The packages have more than 36 elements. -/
theorem C117_refuted_base_case : jindoPkg.Good ∧ 36 < jindoPkg.p := by
  refine ⟨C79_jindo.1, ?_⟩
  rw [C79_jindo.2.1]
  norm_num

end Ringo
