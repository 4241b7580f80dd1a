import Verif.Model.Csprng
import Mathlib.Algebra.Group.Basic
import Mathlib.Tactic.Ring
import Mathlib.Tactic.Linarith
import Mathlib.Tactic.FieldSimp
import Mathlib.Tactic.NormNum
import Mathlib.Data.Finset.Card
import Mathlib.Order.Interval.Finset.Nat
import Mathlib.Data.Nat.Count

/-!
# C01 - C06: exponentiation and samplers
-/

namespace Ringo

/-! ## C01 -/

/-- **C01**.  `Exp(x, e)` is the `e`-th power, for every exponent. -/
theorem C01_exp {F : Type} [Monoid F] (x : F) (e : Nat) : expU64 x e = x ^ e := by
  have key : ∀ e : Nat, ∀ r t : F, expLoop r t e = r * t ^ e := by
    intro e
    induction e using Nat.strong_induction_on with
    | _ e ih =>
      intro r t
      rw [expLoop]
      by_cases h : e = 0
      · simp [h]
      · rw [if_neg h, ih (e / 2) (by omega)]
        have hp : (t * t) ^ (e / 2) = t ^ (2 * (e / 2)) := by rw [pow_mul, pow_two]
        rw [hp]
        by_cases h2 : e % 2 = 1
        · rw [if_pos h2, mul_assoc, ← pow_succ']
          congr 2; omega
        · rw [if_neg h2]
          congr 2; omega
  rw [expU64, key, one_mul]

/-- Non-vacuity. -/
example : expU64 (3 : ℤ) 5 = 243 := by rw [C01_exp]; norm_num

/-! ## C02 -/

/-- **C02**, range: whatever the generator produces, if `SampleN(n)` returns then the result is
below `n`; `n = 0` panics. -/
theorem C02_range (s s' : Sampler) (n r : Nat) (h : SampleN s n r s') : r < n := by
  induction h with
  | @accept s n b r s' hb hs h =>
    have : n ≠ 0 := by
      rintro rfl
      simp [sampleNBound, goPanic] at hb
    exact Nat.mod_lt _ (by omega)
  | reject _ _ _ _ ih => exact ih

/-- **C02**: `n = 0` panics (and so never returns). -/
theorem C02_zero_panics : sampleNBound 0 = .error .panic ∧ ∀ s r s', ¬ SampleN s 0 r s' :=
  ⟨rfl, fun s r s' h => absurd (C02_range s s' 0 r h) (by omega)⟩

/-- **C02**, no bias: among the 64-bit words that are accepted, every residue below `n` comes
from exactly the same number of words, and more than half of all words are accepted. -/
theorem C02_unbiased (n : Nat) (h1 : 1 ≤ n) (h2 : n < 2 ^ 64) :
    ∃ b c, sampleNBound n = .ok b ∧ b ≤ 2 ^ 64 ∧ 2 ^ 64 < 2 * b + 2 ∧ 1 ≤ c ∧
      ∀ k < n, ((Finset.range (2 ^ 64)).filter (fun w => w < b ∧ w % n = k)).card = c := by
  set M := 2 ^ 64 - 1 with hM
  have hdm := Nat.div_add_mod M n
  have hml := Nat.mod_lt M (show n > 0 by omega)
  have hdpos : 1 ≤ M / n := Nat.div_pos (by omega) (by omega)
  refine ⟨M - M % n, M / n, ?_, by omega, ?_, hdpos, ?_⟩
  · unfold sampleNBound; rw [if_neg (by omega)]; rfl
  · have : n * (M / n) ≥ n * 1 := Nat.mul_le_mul_left n hdpos
    have hb : M - M % n = n * (M / n) := by omega
    rw [hb]
    omega
  · intro k hk
    have hb : M - M % n = n * (M / n) := by omega
    rw [hb]
    have : (Finset.range (2 ^ 64)).filter (fun w => w < n * (M / n) ∧ w % n = k)
        = (Finset.range (M / n)).image (fun q => n * q + k) := by
      ext w
      simp only [Finset.mem_filter, Finset.mem_range, Finset.mem_image]
      constructor
      · rintro ⟨-, hw, hwk⟩
        refine ⟨w / n, Nat.div_lt_of_lt_mul hw, ?_⟩
        have := Nat.div_add_mod w n; omega
      · rintro ⟨q, hq, rfl⟩
        have h3 : n * (q + 1) ≤ n * (M / n) := Nat.mul_le_mul_left n hq
        rw [Nat.mul_add] at h3
        refine ⟨by omega, by omega, ?_⟩
        rw [Nat.mul_add_mod, Nat.mod_eq_of_lt hk]
    rw [this, Finset.card_image_of_injective, Finset.card_range]
    intro a b hab
    have : n * a = n * b := by simpa using hab
    exact Nat.eq_of_mul_eq_mul_left (by omega) this

/-- Non-vacuity: a sampler whose keystream is all `0xff` never accepts for `n = 10` (the word
`2^64-1` is in the rejected tail `2^64-6 ..`), one whose keystream is all zero returns 0. -/
example : ∃ s', SampleN (newSampler (fun _ => 0)) 10 0 s' := by
  have hs : (newSampler (fun _ => 0)).sample = .ok (0, ⟨fun _ => 0, 8192, List.replicate bufSize 0, 8⟩) := by
    have hx : xorKeyStream (fun _ => 0) 0 (List.replicate bufSize (0 : BitVec 8)) = List.replicate bufSize 0 := by
      unfold xorKeyStream
      apply List.ext_getElem <;> simp
    have hi : ∀ j, j < bufSize → idx (List.replicate bufSize (0 : BitVec 8)) j = .ok 0 := by
      intro j hj; rw [idx_ok (by simpa using hj)]; simp
    unfold Sampler.sample newSampler
    simp only [if_true, hx, Nat.zero_add]
    rw [hi 0 (by decide), hi 1 (by decide), hi 2 (by decide), hi 3 (by decide), hi 4 (by decide),
      hi 5 (by decide), hi 6 (by decide), hi 7 (by decide)]
    rfl
  have := SampleN.accept (s := newSampler (fun _ => 0)) (n := 10) (b := 2 ^ 64 - 6) (r := 0) rfl hs (by norm_num)
  exact ⟨_, this⟩

/-! ## C03 -/

/-- The byte the buffer holds at position `x` after `t + 1` refills. -/
def accKs (ks : Nat → BitVec 8) (x : Nat) : Nat → BitVec 8
  | 0 => ks x
  | t + 1 => accKs ks x t ^^^ ks (8192 * (t + 1) + x)

/-- Little-endian value of eight bytes. -/
def le8 (f : Nat → BitVec 8) : Nat :=
  (f 0).toNat + 256 * (f 1).toNat + 256 ^ 2 * (f 2).toNat + 256 ^ 3 * (f 3).toNat +
    256 ^ 4 * (f 4).toNat + 256 ^ 5 * (f 5).toNat + 256 ^ 6 * (f 6).toNat + 256 ^ 7 * (f 7).toNat

theorem or_shift_eq (a b k : Nat) (ha : a < 2 ^ k) : a ||| b <<< k = a + 2 ^ k * b := by
  rw [Nat.or_comm, ← Nat.shiftLeft_add_eq_or_of_lt ha, Nat.shiftLeft_eq]; ring

theorem le8_or (f : Nat → BitVec 8) :
    (((((((0 ||| (f 0).toNat) ||| (f 1).toNat <<< 8) ||| (f 2).toNat <<< 16) ||| (f 3).toNat <<< 24) |||
      (f 4).toNat <<< 32) ||| (f 5).toNat <<< 40) ||| (f 6).toNat <<< 48) ||| (f 7).toNat <<< 56 = le8 f := by
  have h := fun i => (f i).isLt
  have h0 := h 0; have h1 := h 1; have h2 := h 2; have h3 := h 3
  have h4 := h 4; have h5 := h 5; have h6 := h 6; have h7 := h 7
  unfold le8
  generalize (f 0).toNat = a0 at *
  generalize (f 1).toNat = a1 at *
  generalize (f 2).toNat = a2 at *
  generalize (f 3).toNat = a3 at *
  generalize (f 4).toNat = a4 at *
  generalize (f 5).toNat = a5 at *
  generalize (f 6).toNat = a6 at *
  generalize (f 7).toNat = a7 at *
  rw [Nat.zero_or, or_shift_eq a0 a1 8 (by omega), or_shift_eq _ a2 16 (by omega),
    or_shift_eq _ a3 24 (by omega), or_shift_eq _ a4 32 (by omega), or_shift_eq _ a5 40 (by omega),
    or_shift_eq _ a6 48 (by omega), or_shift_eq _ a7 56 (by omega)]
  norm_num

theorem le8_inj (f g : Nat → BitVec 8) : le8 f = le8 g ↔ ∀ j < 8, f j = g j := by
  constructor
  · intro h
    have hf := fun i => (f i).isLt
    have hg := fun i => (g i).isLt
    unfold le8 at h
    have f0 := hf 0; have f1 := hf 1; have f2 := hf 2; have f3 := hf 3
    have f4 := hf 4; have f5 := hf 5; have f6 := hf 6; have f7 := hf 7
    have g0 := hg 0; have g1 := hg 1; have g2 := hg 2; have g3 := hg 3
    have g4 := hg 4; have g5 := hg 5; have g6 := hg 6; have g7 := hg 7
    intro j hj
    apply BitVec.eq_of_toNat_eq
    have : j = 0 ∨ j = 1 ∨ j = 2 ∨ j = 3 ∨ j = 4 ∨ j = 5 ∨ j = 6 ∨ j = 7 := by omega
    rcases this with rfl | rfl | rfl | rfl | rfl | rfl | rfl | rfl <;> omega
  · intro h
    unfold le8
    rw [h 0 (by omega), h 1 (by omega), h 2 (by omega), h 3 (by omega), h 4 (by omega), h 5 (by omega),
      h 6 (by omega), h 7 (by omega)]

theorem le8_surj (w : Nat) (hw : w < 2 ^ 64) :
    le8 (fun j => BitVec.ofNat 8 (w / 256 ^ j)) = w := by
  unfold le8
  simp only [BitVec.toNat_ofNat]
  norm_num
  omega

/-- State of a fresh sampler after `m` calls: `m` words of `t` refills are used. -/
def SInv (ks : Nat → BitVec 8) (m : Nat) (s : Sampler) : Prop :=
  s.ks = ks ∧ s.buf.length = bufSize ∧
    ((m = 0 ∧ s = newSampler ks) ∨ ∃ t, 1024 * t < m ∧ m ≤ 1024 * (t + 1) ∧
      s.off = 8192 * (t + 1) ∧ s.ptr = 8 * (m - 1024 * t) ∧
      ∀ x < bufSize, s.buf.getD x 0 = accKs ks x t)

theorem xor_getD (ks : Nat → BitVec 8) (off : Nat) (p : List (BitVec 8)) (x : Nat) (hx : x < p.length) :
    (xorKeyStream ks off p).getD x 0 = p.getD x 0 ^^^ ks (off + x) := by
  unfold xorKeyStream
  simp [List.getD_eq_getElem?_getD, hx]

theorem xor_length (ks : Nat → BitVec 8) (off : Nat) (p : List (BitVec 8)) :
    (xorKeyStream ks off p).length = p.length := by simp [xorKeyStream]

theorem sample_core (s : Sampler) (hb : s.buf.length = bufSize) (hp : s.ptr + 8 ≤ bufSize) (hne : s.ptr ≠ bufSize) :
    s.sample = .ok (le8 (fun j => s.buf.getD (s.ptr + j) 0), ⟨s.ks, s.off, s.buf, s.ptr + 8⟩) := by
  have hi : ∀ j, j < 8 → idx s.buf (s.ptr + j) = .ok (s.buf.getD (s.ptr + j) 0) := by
    intro j hj
    have h : s.ptr + j < s.buf.length := by omega
    rw [idx_ok h]; simp [h]
  unfold Sampler.sample
  simp only [if_neg hne]
  rw [hi 0 (by omega), hi 1 (by omega), hi 2 (by omega), hi 3 (by omega), hi 4 (by omega),
    hi 5 (by omega), hi 6 (by omega), hi 7 (by omega)]
  simp only [go_bind_ok, go_pure]
  rw [le8_or (fun j => s.buf.getD (s.ptr + j) 0)]

theorem sample_refill (s : Sampler) (hp : s.ptr = bufSize) :
    s.sample = (⟨s.ks, s.off + bufSize, xorKeyStream s.ks s.off s.buf, 0⟩ : Sampler).sample := by
  have h0 : ¬ (0 : Nat) = bufSize := by decide
  unfold Sampler.sample
  simp only [if_pos hp, if_neg h0]

theorem sample_step (ks : Nat → BitVec 8) (m : Nat) (s : Sampler) (h : SInv ks m s) :
    ∃ s', s.sample = .ok (le8 (fun j => accKs ks (8 * (m % 1024) + j) (m / 1024)), s') ∧
      SInv ks (m + 1) s' := by
  have hbs : bufSize = 8192 := rfl
  obtain ⟨h1, h2, h3⟩ := h
  have finish : ∀ (s0 : Sampler) (t : Nat), s0.ks = ks → s0.buf.length = bufSize → t = m / 1024 →
      s0.off = 8192 * (t + 1) → s0.ptr = 8 * (m % 1024) →
      (∀ x < bufSize, s0.buf.getD x 0 = accKs ks x t) → s.sample = s0.sample →
      ∃ s', s.sample = .ok (le8 (fun j => accKs ks (8 * (m % 1024) + j) (m / 1024)), s') ∧
        SInv ks (m + 1) s' := by
    intro s0 t e1 e2 e3 e4 e5 e6 e7
    have hlt := Nat.mod_lt m (show 1024 > 0 by omega)
    refine ⟨⟨s0.ks, s0.off, s0.buf, s0.ptr + 8⟩, ?_, ?_⟩
    · rw [e7, sample_core s0 e2 (by omega) (by omega)]
      congr 2
      apply (le8_inj _ _).2
      intro j hj
      rw [e6 _ (by omega), e5, e3]
    · refine ⟨e1, e2, Or.inr ⟨t, by omega, by omega, e4, ?_, e6⟩⟩
      show s0.ptr + 8 = _
      omega
  rcases h3 with ⟨hm, hs⟩ | ⟨t, t1, t2, t3, t4, t5⟩
  · subst hm
    subst hs
    refine finish ⟨ks, 0 + bufSize, xorKeyStream ks 0 (List.replicate bufSize 0), 0⟩ 0 rfl
      (by rw [xor_length]; simp) (by omega) rfl rfl ?_ (sample_refill _ rfl)
    intro x hx
    simp only
    rw [xor_getD _ _ _ _ (by simpa using hx)]
    simp [accKs, List.getD_eq_getElem?_getD, hx]
  · by_cases hfull : m = 1024 * (t + 1)
    · refine finish ⟨s.ks, s.off + bufSize, xorKeyStream s.ks s.off s.buf, 0⟩ (t + 1) h1
        (by rw [xor_length]; exact h2) (by omega) (by simp only [t3, hbs]; ring) (by simp only; omega) ?_
        (sample_refill s (by omega))
      intro x hx
      simp only
      rw [xor_getD _ _ _ _ (by omega), t5 x hx, t3, h1]; rfl
    · exact finish s t h1 h2 (by omega) t3 (by omega) t5 rfl

theorem samples_from (ks : Nat → BitVec 8) (k m : Nat) (s : Sampler) (h : SInv ks m s) :
    ∃ s', s.samples k = .ok ((List.range' m k).map
      (fun m => le8 (fun j => accKs ks (8 * (m % 1024) + j) (m / 1024))), s') := by
  induction k generalizing m s with
  | zero => exact ⟨s, rfl⟩
  | succ k ih =>
    obtain ⟨s1, e1, e2⟩ := sample_step ks m s h
    obtain ⟨s2, e3⟩ := ih (m + 1) s1 e2
    refine ⟨s2, ?_⟩
    unfold Sampler.samples
    rw [e1, go_bind_ok]
    simp only [e3, go_bind_ok, go_pure, List.range'_succ, List.map_cons]

/-- The first `k` values of a fresh sampler. -/
theorem samples_eq (ks : Nat → BitVec 8) (k : Nat) :
    ∃ s', (newSampler ks).samples k = .ok ((List.range k).map
      (fun m => le8 (fun j => accKs ks (8 * (m % 1024) + j) (m / 1024))), s') := by
  have := samples_from ks k 0 (newSampler ks) ⟨rfl, by simp [newSampler], Or.inl ⟨rfl, rfl⟩⟩
  rwa [← List.range_eq_range'] at this

/-- **C03**, injective: two keystreams give the same first `k` samples exactly if they agree on
their first `8k` bytes (so in particular equal seeds give equal sequences and no keystream bit
is dropped or used twice). -/
theorem C03_injective (ks ks' : Nat → BitVec 8) (k : Nat) :
    ((newSampler ks).samples k).map Prod.fst = ((newSampler ks').samples k).map Prod.fst ↔
      ∀ i < 8 * k, ks i = ks' i := by
  obtain ⟨s1, h1⟩ := samples_eq ks k
  obtain ⟨s2, h2⟩ := samples_eq ks' k
  rw [h1, h2]
  have hbs : bufSize = 8192 := rfl
  simp only [Except.map]
  constructor
  · intro h
    have h := Except.ok.inj h
    -- byte `m*8+j` of every word
    have hw : ∀ m < k, ∀ j < 8, accKs ks (8 * (m % 1024) + j) (m / 1024) =
        accKs ks' (8 * (m % 1024) + j) (m / 1024) := by
      intro m hm
      apply (le8_inj _ _).1
      have := congrArg (fun l => l[m]?) h
      simpa [hm] using this
    intro i hi
    induction i using Nat.strong_induction_on with
    | _ i ih =>
      have := hw (i / 8) (by omega) (i % 8) (by omega)
      obtain ⟨t, x, hx, rfl⟩ : ∃ t x, x < bufSize ∧ i = 8192 * t + x :=
        ⟨i / 8192, i % 8192, Nat.mod_lt _ (by omega), (Nat.div_add_mod i 8192).symm⟩
      have e1 : 8 * ((8192 * t + x) / 8 % 1024) + (8192 * t + x) % 8 = x := by omega
      have e2 : (8192 * t + x) / 8 / 1024 = t := by omega
      rw [e1, e2] at this
      -- lower refills agree
      have hlow : ∀ t' , t' < t → accKs ks x t' = accKs ks' x t' := by
        intro t' ht'
        have := hw ((8192 * t' + x) / 8) (by omega) ((8192 * t' + x) % 8) (by omega)
        rwa [show 8 * ((8192 * t' + x) / 8 % 1024) + (8192 * t' + x) % 8 = x by omega,
          show (8192 * t' + x) / 8 / 1024 = t' by omega] at this
      cases t with
      | zero => simpa [accKs] using this
      | succ t =>
        simp only [accKs] at this
        rw [hlow t (by omega)] at this
        have h2 := congrArg (accKs ks' x t ^^^ ·) this
        simpa [← BitVec.xor_assoc] using h2
  · intro h
    congr 1
    apply List.map_congr_left
    intro m hm
    have hm : m < k := by simpa using hm
    apply (le8_inj _ _).2
    intro j hj
    have : ∀ t x, x < bufSize → 8192 * t + x < 8 * k → accKs ks x t = accKs ks' x t := by
      intro t x hx
      induction t with
      | zero => intro hlt; exact h x (by omega)
      | succ t ih =>
        intro hlt
        simp only [accKs]
        rw [ih (by rw [Nat.mul_add] at hlt; omega), h _ hlt]
    apply this
    · omega
    · omega

/-- **C03**, surjective: every sequence of `k` words is produced by some keystream. -/
theorem C03_surjective (ws : List Nat) (hws : ∀ w ∈ ws, w < 2 ^ 64) :
    ∃ ks, ((newSampler ks).samples ws.length).map Prod.fst = .ok ws := by
  have hbs : bufSize = 8192 := rfl
  -- the byte wanted at position `x` after refill `t`
  set want : Nat → Nat → BitVec 8 := fun x t =>
    BitVec.ofNat 8 (ws.getD (1024 * t + x / 8) 0 / 256 ^ (x % 8)) with hwant
  set ks : Nat → BitVec 8 := fun i =>
    if i / 8192 = 0 then want (i % 8192) 0
    else want (i % 8192) (i / 8192 - 1) ^^^ want (i % 8192) (i / 8192) with hks
  have hacc : ∀ t x, x < bufSize → accKs ks x t = want x t := by
    intro t x hx
    induction t with
    | zero =>
      have e1 : x / 8192 = 0 := by omega
      have e2 : x % 8192 = x := by omega
      simp only [accKs, hks, e1, e2, if_true]
    | succ t ih =>
      have e1 : (8192 * (t + 1) + x) / 8192 = t + 1 := by omega
      have e2 : (8192 * (t + 1) + x) % 8192 = x := by omega
      have e3 : ks (8192 * (t + 1) + x) = want x t ^^^ want x (t + 1) := by
        simp only [hks, e1, e2]
        rw [if_neg (by omega), Nat.add_sub_cancel]
      simp only [accKs, ih, e3]
      rw [← BitVec.xor_assoc]
      simp
  obtain ⟨s, h⟩ := samples_eq ks ws.length
  refine ⟨ks, ?_⟩
  rw [h]
  simp only [Except.map]
  congr 1
  apply List.ext_getElem
  · simp
  · intro m h1 h2
    simp only [List.getElem_map, List.getElem_range]
    have hlt := Nat.mod_lt m (show 1024 > 0 by omega)
    have : ∀ j < 8, accKs ks (8 * (m % 1024) + j) (m / 1024) = BitVec.ofNat 8 (ws[m] / 256 ^ j) := by
      intro j hj
      rw [hacc _ _ (by omega)]
      simp only [hwant]
      rw [show 1024 * (m / 1024) + (8 * (m % 1024) + j) / 8 = m by omega,
        show (8 * (m % 1024) + j) % 8 = j by omega]
      simp [h2]
    rw [(le8_inj _ _).2 this]
    exact le8_surj _ (hws _ (List.getElem_mem h2))

/-- Non-vacuity: 2000 samples span two refills. -/
example : ∃ ks, ((newSampler ks).samples 2000).map Prod.fst = .ok (List.range 2000) := by
  obtain ⟨ks, h⟩ := C03_surjective (List.range 2000) (fun w hw => by
    have : w < 2000 := by simpa using hw
    omega)
  exact ⟨ks, by simpa using h⟩

/-! ## C04 -/

/-- **C04**, the part that holds: `Read` reports `len(p)`, keeps the length, and if `p` was all
zero it now holds the next `len(p)` keystream bytes.  Missing: independence of the old contents,
see `C04_refuted`. -/
theorem C04_partial (s : Sampler) (p : List (BitVec 8)) :
    (s.read p).2.2 = p.length ∧ (s.read p).2.1.length = p.length ∧
      (s.read p).1.off = s.off + p.length ∧
      ((∀ b ∈ p, b = 0) → (s.read p).2.1 = (List.range p.length).map (fun i => s.ks (s.off + i))) := by
  refine ⟨rfl, by simp [Sampler.read, xorKeyStream], rfl, fun h => ?_⟩
  unfold Sampler.read xorKeyStream
  apply List.ext_getElem
  · simp
  · intro i h1 h2
    have hi : i < p.length := by simpa using h2
    simp [h _ (List.getElem_mem hi)]

/-- **C04** fails as badly as it can: for every generator state, what `Read` returns determines
the previous contents of the buffer. -/
theorem C04_refuted (s : Sampler) (p q : List (BitVec 8)) (hpq : p ≠ q)
    (hl : p.length = q.length) : (s.read p).2.1 ≠ (s.read q).2.1 := by
  intro h
  apply hpq
  apply List.ext_getElem hl
  intro i h1 h2
  have := congrArg (fun l => l[i]?) h
  simp only [Sampler.read, xorKeyStream, List.getElem?_mapIdx, List.getElem?_eq_getElem h1,
    List.getElem?_eq_getElem h2, Option.map_some, Option.some.injEq] at this
  have h3 := congrArg (· ^^^ s.ks (s.off + i)) this
  simpa [BitVec.xor_assoc] using h3

/-- Non-vacuity. -/
example (s : Sampler) : (s.read [1]).2.1 ≠ (s.read [0]).2.1 := C04_refuted s _ _ (by decide) rfl

/-! ## C05 -/

/-- A rational number that `float64` represents exactly (as a normal or subnormal number with a
53-bit significand). -/
def IsF64 (q : ℚ) : Prop := ∃ (m : Int) (e : Int), |m| < 2 ^ 53 ∧ -1074 ≤ e ∧ e ≤ 971 ∧ q = m * 2 ^ e

/-- **C05**.  Whatever the rounding mode (any function that leaves representable numbers alone),
`SampleFloat` is exactly `(w mod 2^52) / 2^52`, which is in `[0, 1)`. -/
theorem C05_sampleFloat (rnd : ℚ → ℚ) (hrnd : ∀ q, IsF64 q → rnd q = q) (w : Nat) :
    sampleFloatOf rnd w = (w % 2 ^ 52 : Nat) / 2 ^ 52 ∧
      0 ≤ sampleFloatOf rnd w ∧ sampleFloatOf rnd w < 1 := by
  have hr : w % 2 ^ 52 < 2 ^ 52 := Nat.mod_lt _ (by norm_num)
  have main : sampleFloatOf rnd w = (w % 2 ^ 52 : Nat) / 2 ^ 52 := by
    unfold sampleFloatOf floatPrec
    have h1 : (1 <<< 52 : Nat) = 2 ^ 52 := by decide
    simp only [h1]
    generalize w % 2 ^ 52 = r at hr ⊢
    have h2 : r ||| (1023 + 52) <<< 52 = r + 2 ^ 52 * 1075 := by
      rw [Nat.or_comm, ← Nat.shiftLeft_add_eq_or_of_lt hr, Nat.shiftLeft_eq]; ring
    rw [h2]
    have h3 : f64frombits (r + 2 ^ 52 * 1075) = (2 ^ 52 : ℚ) + r := by
      unfold f64frombits
      have e1 : (r + 2 ^ 52 * 1075) % 2 ^ 52 = r := by omega
      have e2 : (r + 2 ^ 52 * 1075) / 2 ^ 52 = 1075 := by omega
      rw [e1, e2]
      norm_num
      ring
    have h4 : rnd (f64frombits (r + 2 ^ 52 * 1075) / 2 ^ 52) = f64frombits (r + 2 ^ 52 * 1075) / 2 ^ 52 := by
      apply hrnd
      rw [h3]
      refine ⟨2 ^ 52 + r, -52, ?_, by norm_num, by norm_num, ?_⟩
      · rw [abs_of_nonneg (by positivity)]; omega
      · push_cast; rw [zpow_neg]; norm_num; ring
    rw [h4, h3]
    have h5 : ((2 : ℚ) ^ 52 + r) / 2 ^ 52 - 1 = r / 2 ^ 52 := by field_simp; ring
    rw [h5]
    apply hrnd
    refine ⟨r, -52, ?_, by norm_num, by norm_num, ?_⟩
    · rw [abs_of_nonneg (by positivity)]; omega
    · push_cast; rw [zpow_neg]; norm_num; ring
  refine ⟨main, ?_, ?_⟩
  · rw [main]; positivity
  · rw [main, div_lt_one (by positivity)]
    exact_mod_cast hr

/-- Non-vacuity: exact arithmetic is such a rounding; the largest word gives `1 - 2^-52`. -/
example : sampleFloatOf id (2 ^ 64 - 1) = (2 ^ 52 - 1) / 2 ^ 52 := by
  rw [(C05_sampleFloat id (fun _ _ => rfl) _).1]; norm_num

/-! ## C06 -/

theorem bsearchLoop_spec (t : List Nat) (u : Nat) (i j : Nat) (hij : i ≤ j) (hj : j ≤ t.length) :
    ∃ r, bsearchLoop t u i j = .ok r ∧ i ≤ r ∧ r ≤ j := by
  induction hn : j - i using Nat.strong_induction_on generalizing i j with
  | _ n ih =>
    rw [bsearchLoop]
    by_cases h : i < j
    · rw [if_pos h]
      have hh : (i + j) / 2 < t.length := by omega
      simp only [idx_ok hh, go_bind_ok]
      split
      · obtain ⟨r, h1, h2, h3⟩ := ih (j - ((i + j) / 2 + 1)) (by omega) ((i + j) / 2 + 1) j (by omega) hj rfl
        exact ⟨r, h1, by omega, h3⟩
      · obtain ⟨r, h1, h2, h3⟩ := ih ((i + j) / 2 - i) (by omega) i ((i + j) / 2) (by omega) (by omega) rfl
        exact ⟨r, h1, h2, by omega⟩
    · rw [if_neg h]
      exact ⟨i, rfl, le_rfl, hij⟩

theorem binarySearch_spec (t : List Nat) (u : Nat) : ∃ r b, binarySearch t u = .ok (r, b) ∧ r ≤ t.length := by
  obtain ⟨r, h1, -, h3⟩ := bsearchLoop_spec t u 0 t.length (by omega) le_rfl
  exact ⟨r, _, by unfold binarySearch; rw [h1]; rfl, h3⟩

/-- What the floating-point rounding of the fractional part and of its multiple satisfies. -/
structure Rounding (rnd : ℚ → ℚ) : Prop where
  mono : ∀ a b, a ≤ b → rnd a ≤ rnd b
  zero : rnd 0 = 0
  one : rnd 1 = 1
  block : rnd 128 = 128

/-- A sampler as the constructor leaves it: `128` tables of `2*tail + 1` entries, whatever the
entries. -/
structure TwinCDT.Wf (s : TwinCDT) (tail : Nat) : Prop where
  tables : s.tables.length = blockSize
  size : ∀ t ∈ s.tables, t.length = 2 * tail + 1
  lo : s.tailLo = -tail
  hi : s.tailHi = tail

theorem twin_core (s : TwinCDT) (tail : Nat) (hs : s.Wf tail) (rnd : ℚ → ℚ) (hr : Rounding rnd)
    (below : ℚ → Int → Nat → Bool) (center : ℚ) (u : Nat) :
    ∃ d : Int, -(tail : Int) - 1 ≤ d ∧ d ≤ tail + 1 ∧
      ∀ k : Int, -2 ^ 63 ≤ ⌊center⌋ + k → ⌊center⌋ + k < 2 ^ 63 →
        s.sample rnd below (center + k) u = .ok (⌊center⌋ + k + d) := by
  have hf0 : (0 : ℚ) ≤ center - ⌊center⌋ := sub_nonneg.2 (Int.floor_le center)
  have hf1 : center - ⌊center⌋ ≤ 1 := by linarith [Int.lt_floor_add_one center]
  set cFrac := rnd (center - ⌊center⌋) with hcf
  have h0 : 0 ≤ cFrac := by have := hr.mono _ _ hf0; rwa [hr.zero] at this
  have h1 : cFrac ≤ 1 := by have := hr.mono _ _ hf1; rwa [hr.one] at this
  have hb : ((blockSize : Nat) : ℚ) = 128 := by norm_num [blockSize]
  set x := rnd (blockSize * cFrac) with hx
  have hx0 : 0 ≤ x := by
    have := hr.mono 0 (blockSize * cFrac) (by rw [hb]; linarith)
    rwa [hr.zero] at this
  have hx1 : x ≤ 128 := by
    have := hr.mono (blockSize * cFrac) 128 (by rw [hb]; linarith)
    rwa [hr.block] at this
  have hfl0 : 0 ≤ ⌊x⌋ := Int.floor_nonneg.2 hx0
  have hfl1 : ⌊x⌋ ≤ 128 := by
    have : (⌊x⌋ : ℚ) ≤ 128 := le_trans (Int.floor_le x) hx1
    exact_mod_cast this
  have hce0 : 0 ≤ ⌈x⌉ := Int.ceil_nonneg hx0
  have hce1 : ⌈x⌉ ≤ 128 := Int.ceil_le.2 (by exact_mod_cast hx1)
  have htm : ∀ y : Int, 0 ≤ y → 0 ≤ y.tmod blockSize ∧ (y.tmod blockSize).toNat < s.tables.length := by
    intro y hy
    rw [Int.tmod_eq_emod_of_nonneg hy, hs.tables]
    have h1 := Int.emod_nonneg y (b := (blockSize : Int)) (by decide)
    have h2 := Int.emod_lt_of_pos y (b := (blockSize : Int)) (by decide)
    omega
  obtain ⟨a1, a2⟩ := htm _ hfl0
  obtain ⟨b1, b2⟩ := htm _ hce0
  obtain ⟨r0, o0, e0, l0⟩ := binarySearch_spec (s.tables[((⌊x⌋).tmod blockSize).toNat]) u
  obtain ⟨r1, o1, e1, l1⟩ := binarySearch_spec (s.tables[((⌈x⌉).tmod blockSize).toNat]) u
  have z0 := hs.size _ (List.getElem_mem a2)
  have z1 := hs.size _ (List.getElem_mem b2)
  rw [z0] at l0
  rw [z1] at l1
  set v0 : Int := if o0 = true then (r0 : Int) - 1 else r0 with hv0
  set v1 : Int := if o1 = true then (r1 : Int) - 1 else r1 with hv1
  have hv0' : -1 ≤ v0 ∧ v0 ≤ 2 * tail + 1 := by rw [hv0]; split <;> omega
  have hv1' : -1 ≤ v1 ∧ v1 ≤ 2 * tail + 1 := by rw [hv1]; split <;> omega
  refine ⟨(if v0 = v1 then v0 else if below cFrac v0 u then v0 else v1) + s.tailLo, ?_, ?_, ?_⟩
  · rw [hs.lo]; split_ifs <;> omega
  · rw [hs.lo]; split_ifs <;> omega
  · intro k hk1 hk2
    have hfl : ⌊center + k⌋ = ⌊center⌋ + k := Int.floor_add_intCast center k
    have hfr : center + k - ((⌊center⌋ + k : Int) : ℚ) = center - ⌊center⌋ := by push_cast; ring
    have t1 : toInt64 ⌊x⌋ = .ok ⌊x⌋ := by
      unfold toInt64; rw [if_pos ⟨by omega, by omega⟩]; rfl
    have t2 : toInt64 ⌈x⌉ = .ok ⌈x⌉ := by
      unfold toInt64; rw [if_pos ⟨by omega, by omega⟩]; rfl
    have t3 : toInt64 (⌊center⌋ + k) = .ok (⌊center⌋ + k) := by
      unfold toInt64; rw [if_pos ⟨hk1, hk2⟩]; rfl
    unfold TwinCDT.sample
    simp only [hfl, hfr, ← hcf, ← hx, t1, t2, t3, go_bind_ok]
    rw [if_neg (by omega), idx_ok a2, go_bind_ok, e0, go_bind_ok, idx_ok b2, go_bind_ok, e1, go_bind_ok]
    simp only [← hv0, ← hv1, go_pure]
    by_cases hvv : v0 = v1
    · rw [if_pos hvv, if_pos hvv]; congr 1; ring
    · rw [if_neg hvv, if_neg hvv]
      split <;> (congr 1; ring)

/-- **C06**, tails: whatever the tables contain and whatever the outcome of the floating-point
comparison, `Sample(center)` does not panic and is within `ceil(9*stdDev) + 1` of
`floor(center)`. -/
theorem C06_tail (s : TwinCDT) (tail : Nat) (hs : s.Wf tail) (rnd : ℚ → ℚ) (hr : Rounding rnd)
    (below : ℚ → Int → Nat → Bool) (center : ℚ) (hc1 : -2 ^ 62 ≤ center) (hc2 : center ≤ 2 ^ 62) (u : Nat) :
    ∃ y, s.sample rnd below center u = .ok y ∧ |y - ⌊center⌋| ≤ tail + 1 := by
  obtain ⟨d, d1, d2, h⟩ := twin_core s tail hs rnd hr below center u
  have f1 : -2 ^ 62 ≤ ⌊center⌋ := Int.le_floor.2 (by exact_mod_cast hc1)
  have f2 : ⌊center⌋ ≤ 2 ^ 62 := by
    have : (⌊center⌋ : ℚ) ≤ 2 ^ 62 := le_trans (Int.floor_le _) hc2
    exact_mod_cast this
  have := h 0 (by omega) (by omega)
  refine ⟨⌊center⌋ + 0 + d, by simpa using this, ?_⟩
  rw [abs_le]; omega

/-- **C06**, shifts: moving the center by an integer moves the sample by that integer, for the
same random word. -/
theorem C06_shift (s : TwinCDT) (tail : Nat) (hs : s.Wf tail) (rnd : ℚ → ℚ) (hr : Rounding rnd)
    (below : ℚ → Int → Nat → Bool) (center : ℚ) (hc1 : -2 ^ 62 ≤ center) (hc2 : center ≤ 2 ^ 62) (u : Nat)
    (k : Int) (hk1 : -2 ^ 62 ≤ k) (hk2 : k < 2 ^ 62) :
    ∃ y, s.sample rnd below center u = .ok y ∧ s.sample rnd below (center + k) u = .ok (y + k) := by
  obtain ⟨d, d1, d2, h⟩ := twin_core s tail hs rnd hr below center u
  have f1 : -2 ^ 62 ≤ ⌊center⌋ := Int.le_floor.2 (by exact_mod_cast hc1)
  have f2 : ⌊center⌋ ≤ 2 ^ 62 := by
    have : (⌊center⌋ : ℚ) ≤ 2 ^ 62 := le_trans (Int.floor_le _) hc2
    exact_mod_cast this
  have := h 0 (by omega) (by omega)
  refine ⟨⌊center⌋ + d, by simpa using this, ?_⟩
  rw [h k (by omega) (by omega)]
  congr 1; ring

/-- **C06**, cosets: the result of `SampleCoset` is in the coset of the center and in the tail around zero, up to the
rounding of its last two operations. -/
theorem C06_coset (s : TwinCDT) (tail : Nat) (hs : s.Wf tail) (rnd : ℚ → ℚ) (hr : Rounding rnd)
    (below : ℚ → Int → Nat → Bool) (center : ℚ) (hc1 : -2 ^ 62 ≤ center) (hc2 : center ≤ 2 ^ 62) (u : Nat) :
    ∃ y : Int, s.sampleCoset rnd below center u = .ok (rnd (center + rnd y)) ∧ |center + y| < tail + 2 := by
  obtain ⟨y, h1, h2⟩ := C06_tail s tail hs rnd hr below (-center) (by linarith) (by linarith) u
  refine ⟨y, by unfold TwinCDT.sampleCoset; rw [h1]; rfl, ?_⟩
  have h3 := Int.floor_le (-center)
  have h4 := Int.lt_floor_add_one (-center)
  rw [abs_le] at h2
  have h5 : -(tail + 1 : ℚ) ≤ y - ⌊-center⌋ := by exact_mod_cast h2.1
  have h6 : (y - ⌊-center⌋ : ℚ) ≤ tail + 1 := by exact_mod_cast h2.2
  rw [abs_lt]
  constructor <;> linarith

/-- **C06**, cosets without rounding: the result differs from the center by an integer, is in the tail around zero,
and depends on the coset only. -/
theorem C06_coset_exact (s : TwinCDT) (tail : Nat) (hs : s.Wf tail) (below : ℚ → Int → Nat → Bool) (center : ℚ)
    (hc1 : -2 ^ 61 ≤ center) (hc2 : center ≤ 2 ^ 61) (u : Nat) (k : Int) (hk1 : -2 ^ 61 ≤ k) (hk2 : k < 2 ^ 61) :
    ∃ z, s.sampleCoset id below center u = .ok z ∧ s.sampleCoset id below (center + k) u = .ok z ∧
      |z| < tail + 2 ∧ ∃ y : Int, z = center + y := by
  have hr : Rounding id := ⟨fun _ _ h => h, rfl, rfl, rfl⟩
  obtain ⟨y, h1, h2⟩ := C06_coset s tail hs id hr below center (by linarith) (by linarith) u
  obtain ⟨y', h3, h4⟩ := C06_shift s tail hs id hr below (-center) (by linarith) (by linarith) u (-k) (by omega) (by omega)
  refine ⟨center + y, h1, ?_, h2, y, rfl⟩
  have e1 : s.sampleCoset id below center u = .ok (center + (y' : ℚ)) := by
    unfold TwinCDT.sampleCoset; rw [h3]; rfl
  have e2 : s.sampleCoset id below (center + k) u = .ok (center + k + ((y' + -k : Int) : ℚ)) := by
    unfold TwinCDT.sampleCoset
    rw [show -(center + (k : ℚ)) = -center + ((-k : Int) : ℚ) by push_cast; ring, h4]
    rfl
  rw [h1] at e1
  have e3 : center + (y : ℚ) = center + y' := Except.ok.inj e1
  rw [e2]
  congr 1
  push_cast
  linarith

/-- Non-vacuity: the same sampler over the coset of `5 / 2`. -/
example : ∃ s : TwinCDT, s.Wf 1 ∧ s.sampleCoset id (fun _ _ _ => true) (5 / 2) 7 = .ok (1 / 2) := by
  refine ⟨⟨List.replicate 128 [3, 6, 9], -1, 1⟩, ⟨by simp [blockSize], ?_, rfl, rfl⟩, ?_⟩
  · intro t ht; rw [(List.mem_replicate.1 ht).2]; rfl
  · decide +kernel

/-- Non-vacuity: a sampler with tail 1 and the same table everywhere. -/
example : ∃ s : TwinCDT, s.Wf 1 ∧ Rounding id ∧
    s.sample id (fun _ _ _ => true) (5 / 2) 7 = .ok 3 := by
  refine ⟨⟨List.replicate 128 [3, 6, 9], -1, 1⟩, ⟨by simp [blockSize], ?_, rfl, rfl⟩, ⟨fun _ _ h => h, rfl, rfl, rfl⟩, ?_⟩
  · intro t ht; rw [(List.mem_replicate.1 ht).2]; rfl
  · decide +kernel

end Ringo
