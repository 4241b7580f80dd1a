import Verif.Model.JProto
import Verif.Proof.JRing
import Verif.Props.JRns

/-!
# What is assumed of lattigo's rings

`ring.Ring` with the moduli `qs` and degree `N` computes in `(ℤ/Q)[X]/(X^N + 1)`, where `Q` is the
product of the moduli.  `LRing.Lawful` says so for the operations the code uses; `lawful_exists`
shows that the assumptions can be met for every chain of moduli.
-/

namespace Ringo

open Polynomial Finset

/-- `(ℤ/Q)[X]/(X^N + 1)`, `Q` the product of the moduli. -/
noncomputable abbrev RQ (qs : List Nat) (N : Nat) : Type := AdjoinRoot (cyclo (ZMod qs.prod) N)

/-- `ℤ[X]/(X^N + 1)`. -/
noncomputable abbrev RZ (N : Nat) : Type := AdjoinRoot (cyclo ℤ N)

/-- The element with the given coefficients. -/
noncomputable def toZ (N : Nat) (z : List Int) : RZ N := AdjoinRoot.mk _ (listPoly z)

/-- The element with the given coefficients modulo `Q`. -/
noncomputable def toR (qs : List Nat) (N : Nat) (z : List Int) : RQ qs N :=
  AdjoinRoot.mk _ (listPoly (z.map fun c : Int => (c : ZMod qs.prod)))

/-- `poly` holds, for every coefficient, numbers congruent to the one of `z` modulo every modulus
(not necessarily reduced). -/
def Residues (qs : List Nat) (poly : List (List Nat)) (z : List Int) : Prop :=
  List.Forall₂ (fun r c => List.Forall₂ (fun (x : Nat) (q : Nat) => (q : Int) ∣ (x : Int) - c) r qs) poly z

/-- The operations of a lattigo ring are those of `(ℤ/Q)[X]/(X^N + 1)`. -/
structure LRing.Lawful {T : Type} [AddCommGroup T] (L : LRing T) where
  /-- The moduli are odd, greater than one and pairwise coprime. -/
  chain : Chain L.qs
  pos : 1 ≤ L.N
  /-- A polynomial in the NTT domain stands for an element; addition, subtraction and zero are
  those of the ring. -/
  val : T ≃+ RQ L.qs L.N
  val_mul : ∀ a b, val (L.mul a b) = val a * val b
  val_scale : ∀ n a, val (L.scale n a) = (n : RQ L.qs L.N) * val a
  /-- `MForm` and `NTT` of coefficients (residues need not be reduced). -/
  val_load : ∀ poly z, z.length = L.N → Residues L.qs poly z → val (L.load poly) = toR L.qs L.N z
  /-- `IMForm` and `INTT` give the reduced residues of the coefficients. -/
  unload_eq : ∀ t z, z.length = L.N → val t = toR L.qs L.N z →
    L.unload t = z.map fun c => L.qs.map (bigResidue c)

/-- `ModUpQtoP` extends the residues of integers below `Q/2` in absolute value to the other
moduli. -/
def ModUpLawful (qs' qs : List Nat) (N : Nat) (modUp : List (List Nat) → List (List Nat)) : Prop :=
  ∀ z : List Int, z.length = N → (∀ c ∈ z, 2 * |c| < qs'.prod) →
    Residues qs (modUp (z.map fun c => qs'.map (bigResidue c))) z

/-! ## Lists of coefficients and elements -/

/-- Reduction modulo `Q`. -/
noncomputable def redR (qs : List Nat) (N : Nat) : RZ N →+* RQ qs N :=
  AdjoinRoot.lift ((AdjoinRoot.of _).comp (Int.castRingHom (ZMod qs.prod))) (AdjoinRoot.root _) (by
    have h := AdjoinRoot.eval₂_root (cyclo (ZMod qs.prod) N)
    rw [eval₂_add, eval₂_pow, eval₂_X, eval₂_one] at h ⊢
    exact h)

theorem redR_mk (qs : List Nat) (N : Nat) (f : ℤ[X]) :
    redR qs N (AdjoinRoot.mk _ f) = AdjoinRoot.mk _ (f.map (Int.castRingHom (ZMod qs.prod))) := by
  unfold redR
  rw [AdjoinRoot.lift_mk, ← eval₂_map, ← AdjoinRoot.aeval_eq]
  rfl

theorem redR_toZ (qs : List Nat) (N : Nat) (z : List Int) : redR qs N (toZ N z) = toR qs N z := by
  unfold toZ toR
  rw [redR_mk, listPoly_map]
  rfl

theorem toR_of_toZ {qs : List Nat} {N : Nat} {z : List Int} {r : RZ N} (h : toZ N z = r) :
    toR qs N z = redR qs N r := by rw [← h, redR_toZ]

/-- Every element has coefficients. -/
theorem exists_coeffs {A : Type} [CommRing A] [Nontrivial A] (N : Nat) (hN : 1 ≤ N)
    (r : AdjoinRoot (cyclo A N)) :
    ∃ v : List A, v.length = N ∧ AdjoinRoot.mk _ (listPoly v) = r := by
  obtain ⟨f, rfl⟩ := AdjoinRoot.mk_surjective r
  have hm := cyclo_monic (A := A) hN
  refine ⟨(List.range N).map fun i => (f %ₘ cyclo A N).coeff i, by simp, ?_⟩
  rw [listPoly_range]
  have hdeg : (f %ₘ cyclo A N).natDegree < N := by
    have h := degree_modByMonic_lt f hm
    rw [degree_eq_natDegree hm.ne_zero, cyclo_natDegree] at h
    by_cases h0 : f %ₘ cyclo A N = 0
    · rw [h0, natDegree_zero]; omega
    · exact (natDegree_lt_iff_degree_lt h0).mpr h
  rw [← as_sum_range_C_mul_X_pow' _ hdeg, AdjoinRoot.mk_eq_mk]
  have h := modByMonic_add_div f (cyclo A N)
  exact ⟨-(f /ₘ cyclo A N), by linear_combination h⟩

theorem Chain.nontrivial {qs : List Nat} (h : Chain qs) : 1 < qs.prod := by
  cases qs with
  | nil => exact absurd rfl h.ne
  | cons q qs =>
    have h1 := h.one q (by simp)
    have h2 := le_prod' h.one (q := q) (by simp)
    omega

/-- Lists of coefficients of the same element are congruent. -/
theorem toR_inj {qs : List Nat} (hc : Chain qs) {N : Nat} (hN : 1 ≤ N) {u w : List Int}
    (hu : u.length = N) (hw : w.length = N) (h : toR qs N u = toR qs N w) :
    List.Forall₂ (fun a b => (qs.prod : Int) ∣ a - b) u w := by
  have : Fact (1 < qs.prod) := ⟨hc.nontrivial⟩
  have h1 := listPoly_mk_inj (cyclo_monic (A := ZMod qs.prod) hN) cyclo_natDegree
    (by simpa using hu) (by simpa using hw) h
  rw [List.forall₂_iff_get]
  refine ⟨by omega, ?_⟩
  intro i h2 h3
  have h4 := congrArg (fun l => l[i]?) h1
  simp only [List.getElem?_map, List.getElem?_eq_getElem h2, List.getElem?_eq_getElem h3,
    Option.map_some, Option.some.injEq] at h4
  rw [List.get_eq_getElem, List.get_eq_getElem]
  rw [ZMod.intCast_eq_intCast_iff_dvd_sub] at h4
  rw [← dvd_neg, neg_sub]
  exact h4

theorem toR_congr {qs : List Nat} {N : Nat} {u w : List Int}
    (h : List.Forall₂ (fun a b => (qs.prod : Int) ∣ a - b) u w) : toR qs N u = toR qs N w := by
  unfold toR
  congr 2
  induction h with
  | nil => rfl
  | cons h1 _ ih =>
    rw [List.map_cons, List.map_cons, ih]
    congr 1
    rw [ZMod.intCast_eq_intCast_iff_dvd_sub, ← dvd_neg, neg_sub]
    exact h1

theorem Residues.length {qs : List Nat} {poly : List (List Nat)} {z : List Int}
    (h : Residues qs poly z) : poly.length = z.length := List.Forall₂.length_eq h

/-- The integers with given residues are determined modulo `Q`. -/
theorem Residues.congr {qs : List Nat} (hc : Chain qs) {poly : List (List Nat)} {u w : List Int}
    (hu : Residues qs poly u) (hw : Residues qs poly w) :
    List.Forall₂ (fun a b => (qs.prod : Int) ∣ a - b) u w := by
  unfold Residues at hu hw
  induction hu generalizing w with
  | nil => cases hw; exact .nil
  | @cons r c poly u h1 h2 ih =>
    cases hw with
    | @cons _ d _ w h3 h4 =>
      refine .cons ?_ (ih h4)
      apply prod_dvd_of_coprime hc.coprime
      intro q hq
      obtain ⟨i, hi, rfl⟩ := List.mem_iff_getElem.mp hq
      rw [List.forall₂_iff_get] at h1 h3
      have h5 := h1.2 i (by omega) hi
      have h6 := h3.2 i (by omega) hi
      rw [List.get_eq_getElem, List.get_eq_getElem] at h5 h6
      have := dvd_sub h6 h5
      rwa [sub_sub_sub_cancel_left] at this

/-- Residues written coefficient by coefficient. -/
theorem Residues.of_map {qs : List Nat} (f : Int → Nat → Nat) (z : List Int)
    (h : ∀ c ∈ z, ∀ q ∈ qs, (q : Int) ∣ (f c q : Int) - c) :
    Residues qs (z.map fun c => qs.map (f c)) z := by
  unfold Residues
  rw [List.forall₂_map_left_iff, List.forall₂_same]
  intro c hc
  rw [List.forall₂_map_left_iff, List.forall₂_same]
  exact h c hc

theorem Residues.big {qs : List Nat} (hc : Chain qs) (z : List Int) :
    Residues qs (z.map fun c => qs.map (bigResidue c)) z :=
  Residues.of_map _ z fun c _ q hq => (C59_big c q ((hc.one q hq).trans' Nat.one_pos)).2

theorem bigResidue_congr {qs : List Nat} {q : Nat} (hq : q ∈ qs) {a b : Int}
    (h : (qs.prod : Int) ∣ a - b) : bigResidue a q = bigResidue b q := by
  unfold bigResidue
  have h1 : (q : Int) ∣ a - b := (Int.natCast_dvd_natCast.mpr (List.dvd_prod hq)).trans h
  rw [Int.emod_eq_emod_iff_emod_sub_eq_zero.mpr (Int.emod_eq_zero_of_dvd h1)]

/-- The assumptions can be met, for every chain of moduli and every degree. -/
theorem lawful_exists (qs : List Nat) (hc : Chain qs) (N : Nat) (hN : 1 ≤ N) :
    ∃ L : LRing (RQ qs N), L.qs = qs ∧ L.N = N ∧ Nonempty L.Lawful := by
  classical
  have : Fact (1 < qs.prod) := ⟨hc.nontrivial⟩
  have : NeZero qs.prod := ⟨by have := hc.nontrivial; omega⟩
  have hrep : ∀ r : RQ qs N, ∃ z : List Int, z.length = N ∧ toR qs N z = r := by
    intro r
    obtain ⟨v, h1, h2⟩ := exists_coeffs N hN r
    refine ⟨v.map fun c => (c.val : Int), by simpa using h1, ?_⟩
    unfold toR
    rw [List.map_map, ← h2]
    congr 2
    conv_rhs => rw [← List.map_id v]
    apply List.map_congr_left
    intro a _
    simp
  choose rep hrep1 hrep2 using hrep
  refine ⟨⟨qs, N, fun poly => if h : ∃ z : List Int, z.length = N ∧ Residues qs poly z then
      toR qs N h.choose else 0, fun t => (rep t).map fun c => qs.map (bigResidue c),
      fun a b => a * b, fun n a => (n : RQ qs N) * a⟩,
    rfl, rfl, ⟨⟨hc, hN, AddEquiv.refl _, fun _ _ => rfl, fun _ _ => rfl, ?_, ?_⟩⟩⟩
  · intro poly z hz hr
    have h : ∃ z : List Int, z.length = N ∧ Residues qs poly z := ⟨z, hz, hr⟩
    dsimp only
    rw [dif_pos h]
    exact toR_congr (Residues.congr hc h.choose_spec.2 hr)
  · intro t z hz ht
    have h1 : toR qs N (rep t) = toR qs N z := (hrep2 t).trans ht
    have h2 := toR_inj hc hN (hrep1 t) hz h1
    dsimp only
    generalize rep t = u at h2
    clear ht h1 hz
    induction h2 with
    | nil => rfl
    | cons h3 _ ih =>
      rw [List.map_cons, List.map_cons, ih]
      congr 1
      apply List.map_congr_left
      intro q hq
      exact bigResidue_congr hq h3

end Ringo
