import Verif.Model.FieldText
import Verif.Spec.FieldText
import Verif.Proof.FieldSqrt
import Verif.Proof.FieldExtra
import Verif.Proof.FieldVec
import Mathlib.Tactic.IntervalCases

/-! # Text of field elements: scanning and formatting -/

namespace Ringo

theorem char_eq_of_toNat {c : Char} {n : Nat} (h : c.toNat = n) : c = Char.ofNat n := by
  rw [← h, Char.ofNat_toNat]

theorem char_le_iff (a c : Char) : a ≤ c ↔ a.toNat ≤ c.toNat := Iff.rfl

theorem digitChar_val {c : Char} {d : Nat} (h : DigitChar c d) : c ≠ '_' ∧ digitVal c = d := by
  have hd : d < 16 := by
    rcases h with h | h
    · exact (List.getElem?_eq_some_iff.1 h).1
    · exact (List.getElem?_eq_some_iff.1 h).1
  interval_cases d <;> (rcases h with h | h <;> (cases h; decide))

theorem digitVal_eq (c : Char) : digitVal c =
    if 48 ≤ c.toNat ∧ c.toNat ≤ 57 then c.toNat - 48
    else if 97 ≤ c.toNat ∧ c.toNat ≤ 122 then c.toNat - 97 + 10
    else if 65 ≤ c.toNat ∧ c.toNat ≤ 90 then c.toNat - 65 + 10 else 63 := by
  simp only [digitVal, char_le_iff]
  rfl

theorem digitChar_of_val {c : Char} {b : Nat} (hb : b ≤ 16) (h : digitVal c < b) :
    DigitChar c (digitVal c) := by
  rw [digitVal_eq] at h ⊢
  split_ifs at h ⊢ with h1 h2 h3
  · have hl := h1.1
    have hr := h1.2
    generalize hn : c.toNat = n at *
    obtain rfl := char_eq_of_toNat hn
    clear hn
    interval_cases n <;> exact Or.inl rfl
  · have hl := h2.1
    have hr : c.toNat < 103 := by omega
    generalize hn : c.toNat = n at *
    obtain rfl := char_eq_of_toNat hn
    clear hn
    interval_cases n <;> exact Or.inl rfl
  · have hl := h3.1
    have hr : c.toNat < 71 := by omega
    generalize hn : c.toNat = n at *
    obtain rfl := char_eq_of_toNat hn
    clear hn
    interval_cases n <;> exact Or.inr rfl
  · omega

theorem foldl_ofDigits (b : Nat) (ds : List Nat) : ∀ v : Nat,
    ds.foldl (fun a d => a * b + d) v = v * b ^ ds.length + Nat.ofDigits b ds.reverse := by
  induction ds with
  | nil => intro v; simp
  | cons d ds ih =>
    intro v
    rw [List.foldl_cons, ih, List.reverse_cons, Nat.ofDigits_append, List.length_reverse,
      Nat.ofDigits_singleton, List.length_cons, pow_succ]
    ring

theorem scan_inval (b : Nat) : ∀ (s : List Char) (st : ScanSt), st.inval = true →
    (scanDigits b s st).1.inval = true
  | [], st, h => h
  | c :: s, st, h => by
    rw [scanDigits]
    split_ifs
    · exact scan_inval b s _ (by simp [h])
    · exact h
    · exact scan_inval b s _ h

/-- Reading a numeral. -/
theorem scan_numeral {b : Nat} {s : List Char} {ds : List Nat} (h : Numeral b s ds) :
    ∀ (v k : Nat) (p : Char), scanDigits b s ⟨v, k, p, false⟩ =
      (⟨ds.foldl (fun a d => a * b + d) v, k + ds.length, '0', false⟩, []) := by
  induction h with
  | digit hc hd =>
    intro v k p
    obtain ⟨h1, h2⟩ := digitChar_val hc
    rw [scanDigits, if_neg h1, if_neg (by omega), h2]
    rfl
  | cons hc hd hs ih =>
    intro v k p
    obtain ⟨h1, h2⟩ := digitChar_val hc
    rw [scanDigits, if_neg h1, if_neg (by omega), h2, ih, List.foldl_cons, List.length_cons]
    simp only [Prod.mk.injEq, ScanSt.mk.injEq, true_and, and_true]
    omega
  | sep hc hd hs ih =>
    intro v k p
    obtain ⟨h1, h2⟩ := digitChar_val hc
    rw [scanDigits, if_neg h1, if_neg (by omega), h2, scanDigits, if_pos rfl]
    have e : (false || decide ('0' ≠ '0')) = false := by decide
    simp only [e, ih, List.foldl_cons, List.length_cons]
    simp only [Prod.mk.injEq, ScanSt.mk.injEq, true_and, and_true]
    omega

/-- What has been read if all has been read and there is no error. -/
theorem scan_ok {b : Nat} (hb : b ≤ 16) : ∀ (s : List Char) (v k : Nat) (p : Char),
    (scanDigits b s ⟨v, k, p, false⟩).2 = [] → (scanDigits b s ⟨v, k, p, false⟩).1.inval = false →
    (scanDigits b s ⟨v, k, p, false⟩).1.prev ≠ '_' →
    (s = [] ∧ p ≠ '_') ∨ ∃ ds, Numeral b s ds ∨ p = '0' ∧ ∃ s', s = '_' :: s' ∧ Numeral b s' ds
  | [], v, k, p, _, _, h3 => Or.inl ⟨rfl, h3⟩
  | c :: s, v, k, p, h1, h2, h3 => by
    rw [scanDigits] at h1 h2 h3
    split_ifs at h1 h2 h3 with hc hd
    · subst hc
      by_cases hp : p = '0'
      · subst hp
        have e : (false || decide ('0' ≠ '0')) = false := by decide
        simp only [e] at h1 h2 h3
        rcases scan_ok hb s v k '_' h1 h2 h3 with ⟨_, h⟩ | ⟨ds, h | ⟨h, _⟩⟩
        · exact (h rfl).elim
        · exact Or.inr ⟨ds, Or.inr ⟨rfl, s, rfl, h⟩⟩
        · exact absurd h (by decide)
      · have : (false || decide (p ≠ '0')) = true := by simp [hp]
        simp only [this] at h2
        rw [scan_inval b s _ rfl] at h2
        cases h2
    · have hdc := digitChar_of_val hb (Nat.lt_of_not_le hd)
      have hlt := Nat.lt_of_not_le hd
      rcases scan_ok hb s _ _ '0' h1 h2 h3 with ⟨rfl, _⟩ | ⟨ds, h | ⟨_, s', rfl, h⟩⟩
      · exact Or.inr ⟨_, Or.inl (.digit hdc hlt)⟩
      · exact Or.inr ⟨_, Or.inl (.cons hdc hlt h)⟩
      · exact Or.inr ⟨_, Or.inl (.sep hdc hlt h)⟩

theorem Numeral.length_pos {b : Nat} {s : List Char} {ds : List Nat} (h : Numeral b s ds) :
    0 < ds.length := by cases h <;> simp

theorem Numeral.head {b : Nat} {s : List Char} {ds : List Nat} (h : Numeral b s ds) :
    ∃ c s' d, s = c :: s' ∧ DigitChar c d ∧ d < b := by
  cases h with
  | digit h1 h2 => exact ⟨_, _, _, rfl, h1, h2⟩
  | cons h1 h2 _ => exact ⟨_, _, _, rfl, h1, h2⟩
  | sep h1 h2 _ => exact ⟨_, _, _, rfl, h1, h2⟩

theorem scanEnd_numeral {b : Nat} {s : List Char} {ds : List Nat} (h : Numeral b s ds) (o : Bool)
    (p : Char) : scanEnd o (scanDigits b s ⟨0, 0, p, false⟩) = some (Nat.ofDigits b ds.reverse, []) := by
  have := h.length_pos
  rw [scan_numeral h, scanEnd, if_neg (by simp), if_neg (by simp only; omega), foldl_ofDigits,
    Nat.zero_mul, Nat.zero_add]

theorem scanEnd_sep {b : Nat} {s : List Char} {ds : List Nat} (h : Numeral b s ds) (o : Bool) :
    scanEnd o (scanDigits b ('_' :: s) ⟨0, 0, '0', false⟩) = some (Nat.ofDigits b ds.reverse, []) := by
  rw [scanDigits, if_pos rfl]
  exact scanEnd_numeral h o '_'

/-- What `nat.scan` has read if all has been read. -/
theorem scanEnd_some {b : Nat} (hb : b ≤ 16) {o : Bool} {s : List Char} {p : Char} {v : Nat}
    (h : scanEnd o (scanDigits b s ⟨0, 0, p, false⟩) = some (v, [])) (hs : s ≠ []) :
    ∃ ds, v = Nat.ofDigits b ds.reverse ∧
      (Numeral b s ds ∨ p = '0' ∧ ∃ s', s = '_' :: s' ∧ Numeral b s' ds) := by
  have key : ∃ ds, Numeral b s ds ∨ p = '0' ∧ ∃ s', s = '_' :: s' ∧ Numeral b s' ds := by
    rw [← Prod.mk.eta (p := scanDigits b s ⟨0, 0, p, false⟩), scanEnd] at h
    split_ifs at h with h1 h2 h3
    · rw [not_or] at h1
      rw [Option.some.injEq, Prod.mk.injEq] at h
      rcases scan_ok hb s 0 0 p h.2 (by simpa using h1.1) h1.2 with ⟨h, _⟩ | h
      · exact (hs h).elim
      · exact h
    · rw [not_or] at h1
      rw [Option.some.injEq, Prod.mk.injEq] at h
      rcases scan_ok hb s 0 0 p h.2 (by simpa using h1.1) h1.2 with ⟨h, _⟩ | h
      · exact (hs h).elim
      · exact h
  obtain ⟨ds, hd⟩ := key
  refine ⟨ds, ?_, hd⟩
  rcases hd with hd | ⟨rfl, s', rfl, hd⟩
  · rw [scanEnd_numeral hd] at h
    simpa using h.symm
  · rw [scanEnd_sep hd] at h
    simpa using h.symm

theorem digit_not_letter {c : Char} {d b : Nat} (h : DigitChar c d) (hd : d < b) (hb : b ≤ 10) :
    48 ≤ c.toNat ∧ c.toNat ≤ 57 := by
  have h2 := (digitChar_val h).2
  rw [digitVal_eq] at h2
  split_ifs at h2 with h1 <;> omega

/-- A number that does not start with `0`. -/
theorem natScan_decimal {s : List Char} (h : s.head? ≠ some '0') :
    natScan s = scanEnd false (scanDigits 10 s ⟨0, 0, '.', false⟩) := by
  unfold natScan
  split
  · simp at h
  · simp at h
  · rfl

theorem natScan_cons (c : Char) (s : List Char) : natScan ('0' :: c :: s) =
    if c = 'b' ∨ c = 'B' then scanEnd false (scanDigits 2 s ⟨0, 0, '0', false⟩)
    else if c = 'o' ∨ c = 'O' then scanEnd false (scanDigits 8 s ⟨0, 0, '0', false⟩)
    else if c = 'x' ∨ c = 'X' then scanEnd false (scanDigits 16 s ⟨0, 0, '0', false⟩)
    else scanEnd true (scanDigits 8 (c :: s) ⟨0, 0, '0', false⟩) := rfl

theorem natScan_zero {c : Char} {s : List Char} (hc : c = '_' ∨ 48 ≤ c.toNat ∧ c.toNat ≤ 57) :
    natScan ('0' :: c :: s) = scanEnd true (scanDigits 8 (c :: s) ⟨0, 0, '0', false⟩) := by
  have hne : ∀ x : Char, x ≠ '_' → 57 < x.toNat → c ≠ x := by
    rintro x hx hl rfl
    rcases hc with h | h
    · exact hx h
    · omega
  have e1 := hne 'b' (by decide) (by decide)
  have e2 := hne 'B' (by decide) (by decide)
  have e3 := hne 'o' (by decide) (by decide)
  have e4 := hne 'O' (by decide) (by decide)
  have e5 := hne 'x' (by decide) (by decide)
  have e6 := hne 'X' (by decide) (by decide)
  rw [natScan_cons, if_neg (by tauto), if_neg (by tauto), if_neg (by tauto)]

theorem natScan_prefix {p : List Char} {b : Nat} (hp : LitPrefix p b) {s : List Char}
    (hs : ∃ c s', s = c :: s' ∧ (c = '_' ∨ ∃ d, DigitChar c d ∧ d < b)) :
    ∃ o, natScan (p ++ s) = scanEnd o (scanDigits b s ⟨0, 0, '0', false⟩) := by
  obtain ⟨c, s', rfl, hc⟩ := hs
  cases hp with
  | binary h =>
    refine ⟨false, ?_⟩
    rw [List.cons_append, List.cons_append, List.nil_append, natScan_cons, if_pos h]
  | zero =>
    refine ⟨true, ?_⟩
    rw [List.singleton_append]
    refine natScan_zero (hc.imp_right ?_)
    rintro ⟨d, h1, h2⟩
    exact digit_not_letter h1 h2 (by omega)
  | octal h =>
    refine ⟨false, ?_⟩
    rw [List.cons_append, List.cons_append, List.nil_append, natScan_cons, if_neg, if_pos h]
    rcases h with rfl | rfl <;> decide
  | hex h =>
    refine ⟨false, ?_⟩
    rw [List.cons_append, List.cons_append, List.nil_append, natScan_cons, if_neg, if_neg, if_pos h]
    · rcases h with rfl | rfl <;> decide
    · rcases h with rfl | rfl <;> decide

theorem natScan_of_lit {s : List Char} {v : Nat} (h : IntLit s v) : natScan s = some (v, []) := by
  cases h with
  | zero => rfl
  | decimal hn hh => rw [natScan_decimal hh, scanEnd_numeral hn]
  | based hp hn =>
    obtain ⟨c, s', d, rfl, h1, h2⟩ := hn.head
    obtain ⟨o, h⟩ := natScan_prefix hp ⟨c, s', rfl, Or.inr ⟨d, h1, h2⟩⟩
    rw [h, scanEnd_numeral hn]
  | basedSep hp hn =>
    obtain ⟨o, h⟩ := natScan_prefix hp ⟨'_', _, rfl, Or.inl rfl⟩
    rw [h, scanEnd_sep hn]

theorem scan_empty_none (b : Nat) (p : Char) : scanEnd false (scanDigits b [] ⟨0, 0, p, false⟩) = none := by
  rw [scanDigits, scanEnd]
  split_ifs <;> simp_all

theorem lit_of_prefix {p : List Char} {b : Nat} (hb : b ≤ 16) (hp : LitPrefix p b) {o : Bool} {s : List Char}
    {v : Nat} (h : scanEnd o (scanDigits b s ⟨0, 0, '0', false⟩) = some (v, [])) (hs : s ≠ []) :
    IntLit (p ++ s) v := by
  obtain ⟨ds, rfl, hn | ⟨_, s', rfl, hn⟩⟩ := scanEnd_some hb h hs
  · exact .based hp hn
  · exact .basedSep hp hn

theorem lit_of_natScan {s : List Char} {v : Nat} (h : natScan s = some (v, [])) : IntLit s v := by
  match s, h with
  | [], h => rw [natScan_decimal (by simp), scan_empty_none] at h; cases h
  | ['0'], h =>
    have : v = 0 := by simpa [natScan, scanEnd] using h.symm
    subst this
    exact .zero
  | '0' :: c :: s, h =>
    rw [natScan_cons] at h
    have hne : ∀ {b}, scanEnd false (scanDigits b s ⟨0, 0, '0', false⟩) = some (v, []) → s ≠ [] := by
      rintro b h rfl
      rw [scan_empty_none] at h
      cases h
    split_ifs at h with h1 h2 h3
    · exact lit_of_prefix (by omega) (.binary h1) h (hne h)
    · exact lit_of_prefix (by omega) (.octal h2) h (hne h)
    · exact lit_of_prefix (by omega) (.hex h3) h (hne h)
    · exact lit_of_prefix (p := ['0']) (by omega) .zero h (by simp)
  | c :: s, h =>
    by_cases hc : c = '0'
    · subst hc
      cases s with
      | nil =>
        have : v = 0 := by simpa [natScan, scanEnd] using h.symm
        subst this
        exact .zero
      | cons c s =>
        rw [natScan_cons] at h
        have hne : ∀ {b}, scanEnd false (scanDigits b s ⟨0, 0, '0', false⟩) = some (v, []) → s ≠ [] := by
          rintro b h rfl
          rw [scan_empty_none] at h
          cases h
        split_ifs at h with h1 h2 h3
        · exact lit_of_prefix (by omega) (.binary h1) h (hne h)
        · exact lit_of_prefix (by omega) (.octal h2) h (hne h)
        · exact lit_of_prefix (by omega) (.hex h3) h (hne h)
        · exact lit_of_prefix (p := ['0']) (by omega) .zero h (by simp)
    · have hh : (c :: s).head? ≠ some '0' := by simpa using hc
      rw [natScan_decimal hh] at h
      obtain ⟨ds, rfl, h | ⟨h, _⟩⟩ := scanEnd_some (by omega) h (by simp)
      · exact .decimal h hh
      · exact absurd h (by decide)

theorem IntLit.head {s : List Char} {v : Nat} (h : IntLit s v) :
    ∃ c s', s = c :: s' ∧ 48 ≤ c.toNat ∧ c.toNat ≤ 57 := by
  cases h with
  | zero => exact ⟨_, _, rfl, by decide, by decide⟩
  | decimal hn hh =>
    obtain ⟨c, s', d, rfl, h1, h2⟩ := hn.head
    exact ⟨_, _, rfl, digit_not_letter h1 h2 (by omega)⟩
  | based hp hn => cases hp <;> exact ⟨_, _, rfl, by decide, by decide⟩
  | basedSep hp hn => cases hp <;> exact ⟨_, _, rfl, by decide, by decide⟩

/-- `bigSetString`, by the sign. -/
theorem bigSetString_minus (s : List Char) : bigSetString ('-' :: s) =
    match natScan s with | some (v, []) => some (-(v : Int)) | _ => none := rfl

theorem bigSetString_plus (s : List Char) : bigSetString ('+' :: s) =
    match natScan s with | some (v, []) => some (v : Int) | _ => none := rfl

theorem bigSetString_plain {s : List Char} (h1 : s.head? ≠ some '-') (h2 : s.head? ≠ some '+') :
    bigSetString s = match natScan s with | some (v, []) => some (v : Int) | _ => none := by
  unfold bigSetString
  split
  rename_i neg s' he
  split at he
  · simp at h1
  · simp at h2
  · cases he
    rfl

/-- `big.Int.SetString(s, 0)` reads the integer literals with an optional sign. -/
theorem bigSetString_iff (s : List Char) (v : Int) : bigSetString s = some v ↔ SignedLit s v := by
  constructor
  · intro h
    by_cases h1 : s.head? = some '-'
    · obtain ⟨s, rfl⟩ : ∃ s', s = '-' :: s' := by
        cases s with
        | nil => cases h1
        | cons c s => simp at h1; subst h1; exact ⟨s, rfl⟩
      rw [bigSetString_minus] at h
      split at h
      · rename_i v' he
        cases h
        exact .minus (lit_of_natScan he)
      · cases h
    · by_cases h2 : s.head? = some '+'
      · obtain ⟨s, rfl⟩ : ∃ s', s = '+' :: s' := by
          cases s with
          | nil => cases h2
          | cons c s => simp at h2; subst h2; exact ⟨s, rfl⟩
        rw [bigSetString_plus] at h
        split at h
        · rename_i v' he
          cases h
          exact .plus (lit_of_natScan he)
        · cases h
      · rw [bigSetString_plain h1 h2] at h
        split at h
        · rename_i v' he
          cases h
          exact .plain (lit_of_natScan he)
        · cases h
  · intro h
    cases h with
    | plain h =>
      obtain ⟨c, s', rfl, hc⟩ := h.head
      rw [bigSetString_plain, natScan_of_lit h]
      · rintro hh
        simp only [List.head?_cons, Option.some.injEq] at hh
        subst hh
        exact absurd hc.1 (by decide)
      · rintro hh
        simp only [List.head?_cons, Option.some.injEq] at hh
        subst hh
        exact absurd hc.1 (by decide)
    | plus h => rw [bigSetString_plus, natScan_of_lit h]
    | minus h => rw [bigSetString_minus, natScan_of_lit h]

/-! ### Formatting -/

theorem formatNat_lt {b v : Nat} (h : v < b) : formatNat b v = [digitTable.getD v '0'] := by
  rw [formatNat, dif_neg (by omega)]

theorem formatNat_ge {b v : Nat} (hb : 2 ≤ b) (h : b ≤ v) :
    formatNat b v = formatNat b (v / b) ++ [digitTable.getD (v % b) '0'] := by
  rw [formatNat, dif_pos ⟨hb, h⟩]

theorem digitTable_get {d : Nat} (h : d < 36) :
    some (digitTable.getD d '0') = ("0123456789abcdefghijklmnopqrstuvwxyz".toList)[d]? := by
  rw [List.getD_eq_getElem?_getD]
  have : d < digitTable.length := h
  rw [List.getElem?_eq_getElem this, Option.getD_some]
  exact (List.getElem?_eq_getElem this).symm

theorem shown_formatNat {b : Nat} (hb : 2 ≤ b) (hb' : b ≤ 36) (v : Nat) : Shown b (formatNat b v) v := by
  induction v using Nat.strong_induction_on with
  | _ v ih =>
    by_cases hv : v < b
    · rw [formatNat_lt hv]
      refine ⟨[v], by simp, by simpa, fun h => ?_, by simp, ?_⟩
      · simpa using h
      · rw [List.map_cons, List.map_cons, digitTable_get (by omega)]
        rfl
    · have hv := Nat.le_of_not_lt hv
      rw [formatNat_ge hb hv]
      obtain ⟨ds, h1, h2, h3, h4, h5⟩ := ih (v / b) (Nat.div_lt_self (by omega) (by omega))
      have hpos : 0 < v / b := Nat.div_pos hv (by omega)
      refine ⟨ds ++ [v % b], by simp, ?_, ?_, ?_, ?_⟩
      · intro d hd
        rw [List.mem_append, List.mem_singleton] at hd
        rcases hd with hd | rfl
        · exact h2 d hd
        · exact Nat.mod_lt _ (by omega)
      · intro hh
        rw [List.head?_append_of_ne_nil _ h1] at hh
        have := h3 hh
        subst this
        simp at h4
        omega
      · rw [List.reverse_append, List.reverse_singleton, List.singleton_append, Nat.ofDigits_cons, h4]
        exact Nat.mod_add_div v b
      · rw [List.map_append, List.map_append, h5, List.map_cons, List.map_cons,
          digitTable_get (Nat.lt_of_lt_of_le (Nat.mod_lt _ (by omega)) hb')]
        rfl

theorem digitChar_of_table {c : Char} {d : Nat} (hd : d < 16)
    (h : some c = ("0123456789abcdefghijklmnopqrstuvwxyz".toList)[d]?) : DigitChar c d := by
  have e : ∀ d < 16, ("0123456789abcdef".toList)[d]? =
      ("0123456789abcdefghijklmnopqrstuvwxyz".toList)[d]? := by decide
  exact Or.inl ((e d hd).trans h.symm)

theorem numeral_of_map {b : Nat} (hb : b ≤ 16) : ∀ (ds : List Nat) (s : List Char), ds ≠ [] →
    (∀ d ∈ ds, d < b) →
    s.map some = ds.map (fun d => ("0123456789abcdefghijklmnopqrstuvwxyz".toList)[d]?) → Numeral b s ds
  | [], _, h, _, _ => (h rfl).elim
  | d :: ds, [], _, _, h => by cases h
  | d :: ds, c :: s, _, h, hm => by
    rw [List.map_cons, List.map_cons, List.cons.injEq] at hm
    have hd := h d (by simp)
    have hc := digitChar_of_table (by omega) hm.1
    by_cases he : ds = []
    · subst he
      have : s = [] := by simpa using hm.2
      subst this
      exact .digit hc hd
    · exact .cons hc hd (numeral_of_map hb ds s he (fun x hx => h x (by simp [hx])) hm.2)

theorem Shown.numeral {b : Nat} (hb : b ≤ 16) {s : List Char} {v : Nat} (h : Shown b s v) :
    ∃ ds, Numeral b s ds ∧ v = Nat.ofDigits b ds.reverse := by
  obtain ⟨ds, h1, h2, -, h4, h5⟩ := h
  exact ⟨ds, numeral_of_map hb ds s h1 h2 h5, h4.symm⟩

/-- What `Shown` shows. -/
theorem Shown.lit {s : List Char} {v : Nat} (h : Shown 10 s v) : IntLit s v := by
  obtain ⟨ds, h1, h2, h3, h4, h5⟩ := h
  have hn := numeral_of_map (by omega) ds s h1 h2 h5
  by_cases hz : ds.head? = some 0
  · have := h3 hz
    subst this
    simp at h4
    subst h4
    obtain ⟨c, rfl⟩ : ∃ c, s = [c] := by
      cases s with
      | nil => cases h5
      | cons c s =>
        have : s = [] := by simpa using congrArg List.length h5
        exact ⟨c, by rw [this]⟩
    have : c = '0' := by
      have h := (List.cons.inj h5).1
      exact Option.some.inj h
    subst this
    exact .zero
  · rw [← h4]
    refine .decimal hn fun hh => hz ?_
    cases ds with
    | nil => exact (h1 rfl).elim
    | cons d ds =>
      cases s with
      | nil => cases hh
      | cons c s =>
        simp only [List.head?_cons, Option.some.injEq] at hh ⊢
        subst hh
        have h := (List.cons.inj h5).1
        have hd := h2 d (by simp)
        interval_cases d <;> first | rfl | (exact absurd h (by decide))

theorem Shown.based {b : Nat} (hb : b ≤ 16) {p s : List Char} {v : Nat} (hp : LitPrefix p b)
    (h : Shown b s v) : IntLit (p ++ s) v := by
  obtain ⟨ds, hn, rfl⟩ := h.numeral hb
  exact .based hp hn

end Ringo
