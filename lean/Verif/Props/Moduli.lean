import Verif.Model.FieldPkgs
import Verif.Spec.Field
import Mathlib.NumberTheory.LucasPrimality
import Mathlib.Tactic.ReduceModChar
import Mathlib.Tactic.NormNum.Prime

/-!
# C79: the moduli and constants of the field packages

Every package has the modulus `b^k + 1` its generation announces, this number is prime (Lucas' test: the
prime factors of `p - 1 = b^k` are those of `b`), and the constants `qInvNeg`, `rSquare`, `SetOne` and the
spare bits the code relies on are right.  These are statements about the seven sets of constants, which is
all there is; they are the concrete cases for C69 to C74, which are about all packages of the generated
shape.
-/

namespace Ringo

theorem bfv_prime : Nat.Prime (31432 ^ 16 + 1) := by
  refine lucas_primality _ (3 : ZMod (31432 ^ 16 + 1)) (by rw [Nat.add_sub_cancel]; reduce_mod_char) ?_
  intro q hq hd h
  rw [Nat.add_sub_cancel] at hd h
  have hb : q ∣ 31432 := hq.dvd_of_dvd_pow hd
  have hl : q = 2 ∨ q = 3929 := by
    rw [show 31432 = 2 ^ 3 * 3929 ^ 1 by norm_num, hq.dvd_mul] at hb
    rcases hb with h | h
    · exact Or.inl <| (Nat.prime_dvd_prime_iff_eq hq (by norm_num)).1 (hq.dvd_of_dvd_pow h)
    · exact Or.inr <| (Nat.prime_dvd_prime_iff_eq hq (by norm_num)).1 (hq.dvd_of_dvd_pow h)
  rcases hl with rfl | rfl
  · have e : 31432 ^ 16 / 2 = 453860364096694338087016007804834472836964669580544457479903861893234688 := by norm_num
    rw [e] at h
    reduce_mod_char at h
    revert h
    decide +kernel
  · have e : 31432 ^ 16 / 3929 = 231030981978464921398328331791720271232865700982715427579487840108544 := by norm_num
    rw [e] at h
    reduce_mod_char at h
    revert h
    decide +kernel

theorem mult_prime : Nat.Prime (60256 ^ 8 + 1) := by
  refine lucas_primality _ (3 : ZMod (60256 ^ 8 + 1)) (by rw [Nat.add_sub_cancel]; reduce_mod_char) ?_
  intro q hq hd h
  rw [Nat.add_sub_cancel] at hd h
  have hb : q ∣ 60256 := hq.dvd_of_dvd_pow hd
  have hl : q = 2 ∨ q = 7 ∨ q = 269 := by
    rw [show 60256 = 2 ^ 5 * 7 ^ 1 * 269 ^ 1 by norm_num, hq.dvd_mul, hq.dvd_mul] at hb
    rcases hb with (h | h) | h
    · exact Or.inl <| (Nat.prime_dvd_prime_iff_eq hq (by norm_num)).1 (hq.dvd_of_dvd_pow h)
    · exact Or.inr <| Or.inl <| (Nat.prime_dvd_prime_iff_eq hq (by norm_num)).1 (hq.dvd_of_dvd_pow h)
    · exact Or.inr <| Or.inr <| (Nat.prime_dvd_prime_iff_eq hq (by norm_num)).1 (hq.dvd_of_dvd_pow h)
  rcases hl with rfl | rfl | rfl
  · have e : 60256 ^ 8 / 2 = 86890518948453740232261406201959415808 := by norm_num
    rw [e] at h
    reduce_mod_char at h
    revert h
    decide +kernel
  · have e : 60256 ^ 8 / 7 = 24825862556701068637788973200559833088 := by norm_num
    rw [e] at h
    reduce_mod_char at h
    revert h
    decide +kernel
  · have e : 60256 ^ 8 / 269 = 646026163185529667154359897412337664 := by norm_num
    rw [e] at h
    reduce_mod_char at h
    revert h
    decide +kernel

theorem jindo_prime : Nat.Prime (60272 ^ 16 + 1) := by
  refine lucas_primality _ (3 : ZMod (60272 ^ 16 + 1)) (by rw [Nat.add_sub_cancel]; reduce_mod_char) ?_
  intro q hq hd h
  rw [Nat.add_sub_cancel] at hd h
  have hb : q ∣ 60272 := hq.dvd_of_dvd_pow hd
  have hl : q = 2 ∨ q = 3767 := by
    rw [show 60272 = 2 ^ 4 * 3767 ^ 1 by norm_num, hq.dvd_mul] at hb
    rcases hb with h | h
    · exact Or.inl <| (Nat.prime_dvd_prime_iff_eq hq (by norm_num)).1 (hq.dvd_of_dvd_pow h)
    · exact Or.inr <| (Nat.prime_dvd_prime_iff_eq hq (by norm_num)).1 (hq.dvd_of_dvd_pow h)
  rcases hl with rfl | rfl
  · have e : 60272 ^ 16 / 2 = 15164205111799874073803760488540943041723669917075262035532915833428821147648 := by norm_num
    rw [e] at h
    reduce_mod_char at h
    revert h
    decide +kernel
  · have e : 60272 ^ 16 / 3767 = 8051077840084881377119065828797952238770199053398068508379567737419071488 := by norm_num
    rw [e] at h
    reduce_mod_char at h
    revert h
    decide +kernel

theorem zp110_prime : Nat.Prime (12640 ^ 8 + 1) := by
  refine lucas_primality _ (3 : ZMod (12640 ^ 8 + 1)) (by rw [Nat.add_sub_cancel]; reduce_mod_char) ?_
  intro q hq hd h
  rw [Nat.add_sub_cancel] at hd h
  have hb : q ∣ 12640 := hq.dvd_of_dvd_pow hd
  have hl : q = 2 ∨ q = 5 ∨ q = 79 := by
    rw [show 12640 = 2 ^ 5 * 5 ^ 1 * 79 ^ 1 by norm_num, hq.dvd_mul, hq.dvd_mul] at hb
    rcases hb with (h | h) | h
    · exact Or.inl <| (Nat.prime_dvd_prime_iff_eq hq (by norm_num)).1 (hq.dvd_of_dvd_pow h)
    · exact Or.inr <| Or.inl <| (Nat.prime_dvd_prime_iff_eq hq (by norm_num)).1 (hq.dvd_of_dvd_pow h)
    · exact Or.inr <| Or.inr <| (Nat.prime_dvd_prime_iff_eq hq (by norm_num)).1 (hq.dvd_of_dvd_pow h)
  rcases hl with rfl | rfl | rfl
  · have e : 12640 ^ 8 / 2 = 325796636151108015541452800000000 := by norm_num
    rw [e] at h
    reduce_mod_char at h
    revert h
    decide +kernel
  · have e : 12640 ^ 8 / 5 = 130318654460443206216581120000000 := by norm_num
    rw [e] at h
    reduce_mod_char at h
    revert h
    decide +kernel
  · have e : 12640 ^ 8 / 79 = 8248016105091342165606400000000 := by norm_num
    rw [e] at h
    reduce_mod_char at h
    revert h
    decide +kernel

theorem zp220_prime : Nat.Prime (13216 ^ 16 + 1) := by
  refine lucas_primality _ (3 : ZMod (13216 ^ 16 + 1)) (by rw [Nat.add_sub_cancel]; reduce_mod_char) ?_
  intro q hq hd h
  rw [Nat.add_sub_cancel] at hd h
  have hb : q ∣ 13216 := hq.dvd_of_dvd_pow hd
  have hl : q = 2 ∨ q = 7 ∨ q = 59 := by
    rw [show 13216 = 2 ^ 5 * 7 ^ 1 * 59 ^ 1 by norm_num, hq.dvd_mul, hq.dvd_mul] at hb
    rcases hb with (h | h) | h
    · exact Or.inl <| (Nat.prime_dvd_prime_iff_eq hq (by norm_num)).1 (hq.dvd_of_dvd_pow h)
    · exact Or.inr <| Or.inl <| (Nat.prime_dvd_prime_iff_eq hq (by norm_num)).1 (hq.dvd_of_dvd_pow h)
    · exact Or.inr <| Or.inr <| (Nat.prime_dvd_prime_iff_eq hq (by norm_num)).1 (hq.dvd_of_dvd_pow h)
  rcases hl with rfl | rfl | rfl
  · have e : 13216 ^ 16 / 2 = 433082349268159313815216783313719242548507196242333966865853841408 := by norm_num
    rw [e] at h
    reduce_mod_char at h
    revert h
    decide +kernel
  · have e : 13216 ^ 16 / 7 = 123737814076616946804347652375348355013859198926381133390243954688 := by norm_num
    rw [e] at h
    reduce_mod_char at h
    revert h
    decide +kernel
  · have e : 13216 ^ 16 / 59 = 14680757602310485214075145197075228560966345635333354809011994624 := by norm_num
    rw [e] at h
    reduce_mod_char at h
    revert h
    decide +kernel

theorem zp440_prime : Nat.Prime (13512 ^ 32 + 1) := by
  refine lucas_primality _ (5 : ZMod (13512 ^ 32 + 1)) (by rw [Nat.add_sub_cancel]; reduce_mod_char) ?_
  intro q hq hd h
  rw [Nat.add_sub_cancel] at hd h
  have hb : q ∣ 13512 := hq.dvd_of_dvd_pow hd
  have hl : q = 2 ∨ q = 3 ∨ q = 563 := by
    rw [show 13512 = 2 ^ 3 * 3 ^ 1 * 563 ^ 1 by norm_num, hq.dvd_mul, hq.dvd_mul] at hb
    rcases hb with (h | h) | h
    · exact Or.inl <| (Nat.prime_dvd_prime_iff_eq hq (by norm_num)).1 (hq.dvd_of_dvd_pow h)
    · exact Or.inr <| Or.inl <| (Nat.prime_dvd_prime_iff_eq hq (by norm_num)).1 (hq.dvd_of_dvd_pow h)
    · exact Or.inr <| Or.inr <| (Nat.prime_dvd_prime_iff_eq hq (by norm_num)).1 (hq.dvd_of_dvd_pow h)
  rcases hl with rfl | rfl | rfl
  · have e : 13512 ^ 32 / 2 = 762076157419400404439258653952833158083300013252073870440863925142744679144366063550232611917774316446350748007794614934273186070528 := by norm_num
    rw [e] at h
    reduce_mod_char at h
    revert h
    decide +kernel
  · have e : 13512 ^ 32 / 3 = 508050771612933602959505769301888772055533342168049246960575950095163119429577375700155074611849544297567165338529743289515457380352 := by norm_num
    rw [e] at h
    reduce_mod_char at h
    revert h
    decide +kernel
  · have e : 13512 ^ 32 / 563 = 2707197717298047617901451701431023652160923670522464903875182682567476657706451380285018159565805742260571040880265061933474906112 := by norm_num
    rw [e] at h
    reduce_mod_char at h
    revert h
    decide +kernel

theorem zp880_prime : Nat.Prime (13694 ^ 64 + 1) := by
  refine lucas_primality _ (3 : ZMod (13694 ^ 64 + 1)) (by rw [Nat.add_sub_cancel]; reduce_mod_char) ?_
  intro q hq hd h
  rw [Nat.add_sub_cancel] at hd h
  have hb : q ∣ 13694 := hq.dvd_of_dvd_pow hd
  have hl : q = 2 ∨ q = 41 ∨ q = 167 := by
    rw [show 13694 = 2 ^ 1 * 41 ^ 1 * 167 ^ 1 by norm_num, hq.dvd_mul, hq.dvd_mul] at hb
    rcases hb with (h | h) | h
    · exact Or.inl <| (Nat.prime_dvd_prime_iff_eq hq (by norm_num)).1 (hq.dvd_of_dvd_pow h)
    · exact Or.inr <| Or.inl <| (Nat.prime_dvd_prime_iff_eq hq (by norm_num)).1 (hq.dvd_of_dvd_pow h)
    · exact Or.inr <| Or.inr <| (Nat.prime_dvd_prime_iff_eq hq (by norm_num)).1 (hq.dvd_of_dvd_pow h)
  rcases hl with rfl | rfl | rfl
  · have e : 13694 ^ 64 / 2 = 2734706420953982099216469151253118867643525940717321754413224984316176492143511923251263418922457301553229977457554165144323480851860044719278428266002930972390330356491064752599609109542731045815569696246689862692100640030303278732465657085217473983383588619419648 := by norm_num
    rw [e] at h
    reduce_mod_char at h
    revert h
    decide +kernel
  · have e : 13694 ^ 64 / 41 = 133400313217267419473974104939176530128952484913040085581132926064203731324073752353720166776705234222108779388173373909479194187895611937525776988585508827921479529584929987931688249245986880283686326646179993302053689757575769694266617418791096291872370176557056 := by norm_num
    rw [e] at h
    reduce_mod_char at h
    revert h
    decide +kernel
  · have e : 13694 ^ 64 / 167 = 32750975101245294601394840134767890630461388511584691669619460890014089726269603871272615795478530557523712304880888205321239291639042451727885368455124921825033896484922931168857594126260252045695445464032213924456295090183272799191205474074460766268066929573888 := by norm_num
    rw [e] at h
    reduce_mod_char at h
    revert h
    decide +kernel

theorem bfv_p : bfvPkg.p = 31432 ^ 16 + 1 := by decide +kernel

/-- The constants of `examples/bfv/zp` are right: the modulus is the prime `31432^16 + 1`. -/
theorem C79_bfv : bfvPkg.Good ∧ bfvPkg.p = 31432 ^ 16 + 1 ∧ bfvPkg.n = 4 := by
  refine ⟨?_, bfv_p, rfl⟩
  constructor
  · decide
  · decide +kernel
  · rw [bfv_p]; exact bfv_prime
  all_goals decide +kernel

theorem mult_p : multPkg.p = 60256 ^ 8 + 1 := by decide +kernel

/-- The constants of `examples/mult/zp` are right: the modulus is the prime `60256^8 + 1`. -/
theorem C79_mult : multPkg.Good ∧ multPkg.p = 60256 ^ 8 + 1 ∧ multPkg.n = 2 := by
  refine ⟨?_, mult_p, rfl⟩
  constructor
  · decide
  · decide +kernel
  · rw [mult_p]; exact mult_prime
  all_goals decide +kernel

theorem jindo_p : jindoPkg.p = 60272 ^ 16 + 1 := by decide +kernel

/-- The constants of `jindo/internal/zp` are right: the modulus is the prime `60272^16 + 1`. -/
theorem C79_jindo : jindoPkg.Good ∧ jindoPkg.p = 60272 ^ 16 + 1 ∧ jindoPkg.n = 4 := by
  refine ⟨?_, jindo_p, rfl⟩
  constructor
  · decide
  · decide +kernel
  · rw [jindo_p]; exact jindo_prime
  all_goals decide +kernel

theorem zp110_p : zp110Pkg.p = 12640 ^ 8 + 1 := by decide +kernel

/-- The constants of `buckler/internal/zp110` are right: the modulus is the prime `12640^8 + 1`. -/
theorem C79_zp110 : zp110Pkg.Good ∧ zp110Pkg.p = 12640 ^ 8 + 1 ∧ zp110Pkg.n = 2 := by
  refine ⟨?_, zp110_p, rfl⟩
  constructor
  · decide
  · decide +kernel
  · rw [zp110_p]; exact zp110_prime
  all_goals decide +kernel

theorem zp220_p : zp220Pkg.p = 13216 ^ 16 + 1 := by decide +kernel

/-- The constants of `buckler/internal/zp220` are right: the modulus is the prime `13216^16 + 1`. -/
theorem C79_zp220 : zp220Pkg.Good ∧ zp220Pkg.p = 13216 ^ 16 + 1 ∧ zp220Pkg.n = 4 := by
  refine ⟨?_, zp220_p, rfl⟩
  constructor
  · decide
  · decide +kernel
  · rw [zp220_p]; exact zp220_prime
  all_goals decide +kernel

theorem zp440_p : zp440Pkg.p = 13512 ^ 32 + 1 := by decide +kernel

/-- The constants of `buckler/internal/zp440` are right: the modulus is the prime `13512^32 + 1`. -/
theorem C79_zp440 : zp440Pkg.Good ∧ zp440Pkg.p = 13512 ^ 32 + 1 ∧ zp440Pkg.n = 7 := by
  refine ⟨?_, zp440_p, rfl⟩
  constructor
  · decide
  · decide +kernel
  · rw [zp440_p]; exact zp440_prime
  all_goals decide +kernel

theorem zp880_p : zp880Pkg.p = 13694 ^ 64 + 1 := by decide +kernel

/-- The constants of `buckler/internal/zp880` are right: the modulus is the prime `13694^64 + 1`. -/
theorem C79_zp880 : zp880Pkg.Good ∧ zp880Pkg.p = 13694 ^ 64 + 1 ∧ zp880Pkg.n = 14 := by
  refine ⟨?_, zp880_p, rfl⟩
  constructor
  · decide
  · decide +kernel
  · rw [zp880_p]; exact zp880_prime
  all_goals decide +kernel

end Ringo
