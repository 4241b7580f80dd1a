import Verif.Model.CtxHeap

/-!
# Slices that are extended once behave like lists
-/

namespace Ringo

/-- A family of slices, one for each version `v < n`, holding the lists `L v`; `ext` are the versions
that have been extended. -/
structure Fam {α : Type} (m : Backing α) (n : Nat) (S : Nat → SliceHdr) (L : Nat → List α)
    (ext : List Nat) : Prop where
  len : ∀ v < n, (S v).len = (L v).length
  read : ∀ v < n, ∀ i < (S v).len, (L v)[i]? = some (m.elem (S v).arr i)
  arr : ∀ v < n, 0 < (S v).len → (S v).arr < m.next
  cap : ∀ v < n, (S v).len ≤ (S v).cap ∧ ((S v).len = 0 → (S v).cap = 0)
  uniq : ∀ v < n, ∀ v' < n, 0 < (S v).len → (S v).arr = (S v').arr → (S v).len = (S v').len → v = v'
  top : ∀ v < n, ∀ v' < n, v ∉ ext → (S v).len < (S v).cap → 0 < (S v').len →
    (S v').arr = (S v).arr → (S v').len ≤ (S v).len
  ext : ∀ v ∈ ext, v < n

theorem Fam.zero {α : Type} {m : Backing α} {n : Nat} {S : Nat → SliceHdr} {L : Nat → List α}
    {ext : List Nat} (h : Fam m n S L ext) :
    Fam m (n + 1) (Function.update S n ⟨0, 0, 0⟩) (Function.update L n []) ext := by
  have hlt : ∀ v, v < n + 1 → v ≠ n → v < n := by intro v h1 h2; omega
  refine ⟨?_, ?_, ?_, ?_, ?_, ?_, fun v hv => Nat.lt_succ_of_lt (h.ext v hv)⟩
  · intro v hv
    by_cases hn : v = n
    · subst hn; simp
    · simp only [Function.update_of_ne hn]; exact h.len v (hlt v hv hn)
  · intro v hv
    by_cases hn : v = n
    · subst hn; simp
    · simp only [Function.update_of_ne hn]; exact h.read v (hlt v hv hn)
  · intro v hv
    by_cases hn : v = n
    · subst hn; simp
    · simp only [Function.update_of_ne hn]; exact h.arr v (hlt v hv hn)
  · intro v hv
    by_cases hn : v = n
    · subst hn; simp
    · simp only [Function.update_of_ne hn]; exact h.cap v (hlt v hv hn)
  · intro v hv v' hv'
    by_cases hn : v = n
    · subst hn; simp
    · by_cases hn' : v' = n
      · subst hn'
        simp only [Function.update_of_ne hn, Function.update_self]
        intro h1 _ h2; omega
      · simp only [Function.update_of_ne hn, Function.update_of_ne hn']
        exact h.uniq v (hlt v hv hn) v' (hlt v' hv' hn')
  · intro v hv v' hv'
    by_cases hn : v = n
    · subst hn; simp
    · by_cases hn' : v' = n
      · subst hn'; simp
      · simp only [Function.update_of_ne hn, Function.update_of_ne hn']
        exact h.top v (hlt v hv hn) v' (hlt v' hv' hn')

/-- Appending to a version that has not been extended, or is empty. -/
theorem Fam.append {α : Type} (grow : Nat → Nat) {m : Backing α} {n : Nat} {S : Nat → SliceHdr}
    {L : Nat → List α} {ext : List Nat} (h : Fam m n S L ext) {v : Nat} (hv : v < n) (a : α)
    (hx : (S v).len = 0 ∨ v ∉ ext) :
    Fam (m.append grow (S v) a).1 (n + 1) (Function.update S n (m.append grow (S v) a).2)
      (Function.update L n (L v ++ [a])) (v :: ext) := by
  have hlt : ∀ u, u < n + 1 → u ≠ n → u < n := by intro u h1 h2; omega
  have hext : ∀ u ∈ v :: ext, u < n + 1 := by
    intro u hu
    rcases List.mem_cons.1 hu with rfl | hu
    · omega
    · exact Nat.lt_succ_of_lt (h.ext u hu)
  have hcap := h.cap v hv
  by_cases hc : (S v).len < (S v).cap
  · -- in place
    have hpos : 0 < (S v).len := by
      rcases Nat.eq_zero_or_pos (S v).len with h0 | h0
      · have := hcap.2 h0; omega
      · exact h0
    have hnv : v ∉ ext := by
      rcases hx with h0 | h0
      · omega
      · exact h0
    have htop := fun u hu => h.top v hv u hu hnv hc
    unfold Backing.append
    rw [if_pos hc]
    refine ⟨?_, ?_, ?_, ?_, ?_, ?_, hext⟩
    · intro u hu
      by_cases hn : u = n
      · subst hn; simp [h.len v hv]
      · simp only [Function.update_of_ne hn]; exact h.len u (hlt u hu hn)
    · intro u hu i
      by_cases hn : u = n
      · subst hn
        simp only [Function.update_self]
        intro hi
        by_cases he : i = (S v).len
        · subst he
          rw [Function.update_self, h.len v hv, List.getElem?_append_right (le_refl _)]
          simp
        · rw [Function.update_of_ne he, List.getElem?_append_left (by rw [← h.len v hv]; omega)]
          exact h.read v hv i (by omega)
      · simp only [Function.update_of_ne hn]
        intro hi
        have hu' := hlt u hu hn
        rw [h.read u hu' i hi]
        by_cases he : (S u).arr = (S v).arr
        · have := htop u hu' (by omega) he
          rw [he, Function.update_self, Function.update_of_ne (by omega)]
        · rw [Function.update_of_ne he]
    · intro u hu
      by_cases hn : u = n
      · subst hn; simp only [Function.update_self]; intro _; exact h.arr v hv hpos
      · simp only [Function.update_of_ne hn]; exact h.arr u (hlt u hu hn)
    · intro u hu
      by_cases hn : u = n
      · subst hn; simp only [Function.update_self]; omega
      · simp only [Function.update_of_ne hn]; exact h.cap u (hlt u hu hn)
    · intro u hu u' hu'
      by_cases hn : u = n
      · subst hn
        by_cases hn' : u' = u
        · exact fun _ _ _ => hn'.symm
        · simp only [Function.update_self, Function.update_of_ne hn']
          intro _ h1 h2
          have := htop u' (hlt u' hu' hn') (by omega) h1.symm
          omega
      · by_cases hn' : u' = n
        · subst hn'
          simp only [Function.update_self, Function.update_of_ne hn]
          intro h0 h1 h2
          have := htop u (hlt u hu hn) h0 h1
          omega
        · simp only [Function.update_of_ne hn, Function.update_of_ne hn']
          exact h.uniq u (hlt u hu hn) u' (hlt u' hu' hn')
    · intro u hu u' hu' hue
      have hue' : u ≠ v ∧ u ∉ ext := ⟨fun e => hue (e ▸ List.mem_cons_self), fun e =>
        hue (List.mem_cons_of_mem _ e)⟩
      by_cases hn : u = n
      · subst hn
        by_cases hn' : u' = u
        · subst hn'; exact fun _ _ _ => le_refl _
        · simp only [Function.update_self, Function.update_of_ne hn']
          intro _ h0 h1
          have := htop u' (hlt u' hu' hn') h0 h1
          omega
      · by_cases hn' : u' = n
        · subst hn'
          simp only [Function.update_self, Function.update_of_ne hn]
          intro h0 _ h1
          have hul := hlt u hu hn
          have h2 := h.top u hul v hv hue'.2 h0 hpos h1
          have h3 : 0 < (S u).len := by omega
          have h4 := htop u hul h3 h1.symm
          exact absurd (h.uniq u hul v hv h3 h1.symm (by omega)) hue'.1
        · simp only [Function.update_of_ne hn, Function.update_of_ne hn']
          exact h.top u (hlt u hu hn) u' (hlt u' hu' hn') hue'.2
  · -- a new array
    have hlc : (S v).len = (S v).cap := by omega
    unfold Backing.append
    rw [if_neg hc]
    refine ⟨?_, ?_, ?_, ?_, ?_, ?_, hext⟩
    · intro u hu
      by_cases hn : u = n
      · subst hn; simp [h.len v hv]
      · simp only [Function.update_of_ne hn]; exact h.len u (hlt u hu hn)
    · intro u hu i
      by_cases hn : u = n
      · subst hn
        simp only [Function.update_self]
        intro hi
        by_cases he : i = (S v).len
        · subst he
          rw [Function.update_self, h.len v hv, List.getElem?_append_right (le_refl _)]
          simp
        · rw [Function.update_of_ne he, List.getElem?_append_left (by rw [← h.len v hv]; omega)]
          exact h.read v hv i (by omega)
      · simp only [Function.update_of_ne hn]
        intro hi
        have hu' := hlt u hu hn
        have := h.arr u hu' (by omega)
        rw [h.read u hu' i hi, Function.update_of_ne (by omega)]
    · intro u hu
      by_cases hn : u = n
      · subst hn; simp only [Function.update_self]; intro _; omega
      · simp only [Function.update_of_ne hn]
        intro h0
        have := h.arr u (hlt u hu hn) h0
        omega
    · intro u hu
      by_cases hn : u = n
      · subst hn; simp only [Function.update_self]; omega
      · simp only [Function.update_of_ne hn]; exact h.cap u (hlt u hu hn)
    · intro u hu u' hu'
      by_cases hn : u = n
      · subst hn
        by_cases hn' : u' = u
        · exact fun _ _ _ => hn'.symm
        · simp only [Function.update_self, Function.update_of_ne hn']
          intro _ h1 h2
          have := h.arr u' (hlt u' hu' hn') (by omega)
          omega
      · by_cases hn' : u' = n
        · subst hn'
          simp only [Function.update_self, Function.update_of_ne hn]
          intro h0 h1 h2
          have := h.arr u (hlt u hu hn) h0
          omega
        · simp only [Function.update_of_ne hn, Function.update_of_ne hn']
          exact h.uniq u (hlt u hu hn) u' (hlt u' hu' hn')
    · intro u hu u' hu' hue
      have hue' : u ∉ ext := fun e => hue (List.mem_cons_of_mem _ e)
      by_cases hn : u = n
      · subst hn
        by_cases hn' : u' = u
        · subst hn'; exact fun _ _ _ => le_refl _
        · simp only [Function.update_self, Function.update_of_ne hn']
          intro _ h0 h1
          have := h.arr u' (hlt u' hu' hn') h0
          omega
      · by_cases hn' : u' = n
        · subst hn'
          simp only [Function.update_self, Function.update_of_ne hn]
          intro h0 _ h1
          rcases Nat.eq_zero_or_pos (S u).len with h2 | h2
          · have := (h.cap u (hlt u hu hn)).2 h2; omega
          · have := h.arr u (hlt u hu hn) h2
            omega
        · simp only [Function.update_of_ne hn, Function.update_of_ne hn']
          exact h.top u (hlt u hu hn) u' (hlt u' hu' hn') hue'

end Ringo
