import Verif.Props.NTT

/-! # C15: the transforms of accepted ranks stay inside their slices -/

namespace Ringo

/-- **C15**, the part that holds for transforms: if the rank is at least eight, both transforms of every
transformer that the constructors return succeed for all inputs of that rank. -/
theorem C15_ntt_partial (p : Nat) [Fact p.Prime] (K : Nat) (hK : 3 ≤ K) (T : Transformer (ZMod p))
    (hT : newCyclicTransformer p (2 ^ K) = .ok T ∨ newCyclotomicTransformer p (2 ^ K) = .ok T)
    (out v : List (ZMod p)) (ho : out.length = 2 ^ K) (hv : v.length = 2 ^ K) :
    (∃ w, T.fwdNTTTo out v = .ok w) ∧ ∃ w, T.invNTTTo out v = .ok w := by
  have h : (T.fwdNTTTo out v >>= fun w => T.invNTTTo out w) = .ok v ∧
      (T.invNTTTo out v >>= fun w => T.fwdNTTTo out w) = .ok v := by
    rcases hT with hT | hT
    · exact C12_cyclicInverse p K hK T hT out out v ho ho hv
    · exact C12_cyclotomicInverse p K hK T hT out out v ho ho hv
  constructor
  · cases e : T.fwdNTTTo out v with
    | ok w => exact ⟨w, rfl⟩
    | error x => rw [e] at h; cases h.1
  · cases e : T.invNTTTo out v with
    | ok w => exact ⟨w, rfl⟩
    | error x => rw [e] at h; cases h.2

end Ringo
