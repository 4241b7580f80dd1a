import Verif.Props.JProtoEx
import Verif.Props.JDiv

/-!
# C62 for the function that truncates commitments
-/

namespace Ringo

/-- **C62, the code.** `truncate` (prover.go:165-175 and 190-200) always succeeds.  On a polynomial that
stands for the integers `z`, of absolute value below half the modulus, it returns one that stands for
`⌊z/2^k⌋`, so that `2^k` times it differs from `z` by a remainder in `[0, 2^k)`.  In general there is a
remainder in `[0, 2^k)` such that the polynomial equals `2^k` times the result plus the remainder. -/
theorem C62_truncate {T T' : Type} [AddCommGroup T] [AddCommGroup T'] {L : LRing T} {L' : LRing T'}
    (A : L.Lawful) (A' : L'.Lawful) (hN : L'.N = L.N) (k : Nat) (c : T) :
    ∃ t', truncate L L' k c = .ok t' ∧
      (∃ t ρ : List Int, t.length = L.N ∧ ρ.length = L.N ∧ A'.val t' = toR L'.qs L'.N t ∧
        A.val c = 2 ^ k * toR L.qs L.N t + toR L.qs L.N ρ ∧ ∀ r ∈ ρ, 0 ≤ r ∧ r < 2 ^ k) ∧
      ∀ z : List Int, z.length = L.N → A.val c = toR L.qs L.N z →
        (∀ a ∈ z, -(L.qs.prod : Int) < 2 * a ∧ 2 * a < (L.qs.prod : Int) - 1) →
        ∃ t : List Int, A'.val t' = toR L'.qs L'.N t ∧
          List.Forall₂ (fun a b => 0 ≤ a - 2 ^ k * b ∧ a - 2 ^ k * b < 2 ^ k) z t := by
  obtain ⟨t', h1, t, ρ, h2, h3, h4, h5, h6, -⟩ := truncate_spec A A' hN k c
  refine ⟨t', h1, ⟨t, ρ, h2, h3, h4, h5, h6⟩, ?_⟩
  intro z hz hv hb
  refine ⟨z.map (fun a : Int => a >>> k), ?_, ?_⟩
  · unfold truncate at h1
    rw [A.reconstruct_eq hz hv hb, go_bind_ok, go_pure] at h1
    rw [← Except.ok.inj h1,
      show (z.map fun (z : Int) => L'.qs.map fun q => bigResidue (z >>> k) q) =
        (z.map (fun a : Int => a >>> k)).map fun c => L'.qs.map (bigResidue c) by
          rw [List.map_map]; rfl]
    exact A'.val_load _ _ (by simpa [hN] using hz) (Residues.big A'.chain _)
  · rw [List.forall₂_map_right_iff, List.forall₂_same]
    intro a _
    exact C62_truncation a k

/-- `-5` and `6`, truncated by two bits in a ring of degree 4, stand for `-2` and `1`. -/
example : ∃ (L : LRing (RQ exQs 4)) (L' : LRing (RQ [2305843009213693951] 4)) (A : L.Lawful)
    (A' : L'.Lawful) (c : RQ exQs 4), A.val c = toR L.qs L.N [-5, 6, 0, 0] ∧
    ∃ t', truncate L L' 2 c = .ok t' ∧ A'.val t' = toR L'.qs L'.N [-2, 1, 0, 0] := by
  obtain ⟨L, h1, h2, ⟨A⟩⟩ := lawful_exists exQs exQs_chain 4 (by omega)
  obtain ⟨L', h1', h2', ⟨A'⟩⟩ := lawful_exists [2305843009213693951] exQ'_chain 4 (by omega)
  obtain ⟨c, hc⟩ : ∃ c, A.val c = toR L.qs L.N [-5, 6, 0, 0] := A.val.surjective _
  refine ⟨L, L', A, A', c, hc, ?_⟩
  obtain ⟨t', h3, -, h4⟩ := C62_truncate A A' (by rw [h2, h2']) 2 c
  obtain ⟨t, h5, h6⟩ := h4 _ (by rw [h2]; rfl) hc (by rw [h1]; simp [exQs])
  refine ⟨t', h3, ?_⟩
  rw [h5]
  congr 1
  simp only [List.forall₂_cons_left_iff, List.forall₂_nil_left_iff] at h6
  obtain ⟨a, u, ha, ⟨b, v, hb, ⟨d, w, hd, ⟨e, x, he, rfl, rfl⟩, rfl⟩, rfl⟩, rfl⟩ := h6
  norm_num at ha hb hd he
  simp only [List.cons.injEq, and_true]
  omega

end Ringo
