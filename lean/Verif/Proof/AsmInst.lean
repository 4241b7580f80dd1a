import Verif.Proof.AsmBfly

/-!
# The amd64 assembly: the programs of the repository
-/

namespace Ringo.Amd64

variable {P : FieldPkg}

/-! ### The first lines of `mul` -/

theorem pre_regs (hP : Consts P) {R : MulRegs} {xb yb : Loc} {rs : List Loc} (hxs : R.xs = rs.map .l)
    (hr : rs.length = P.n) (hn : (xb :: yb :: rs).Nodup) {s : St} (hs : s.Ok)
    (hl : (s.mem (s.arg 1)).length = P.n) :
    Prelude P R yb s (execs P s (.mov (.arg 1) xb :: (movs (memOpds P.n xb) rs ++ [.mov (.arg 2) yb]))) := by
  simp only [List.nodup_cons, List.mem_cons, not_or] at hn
  obtain ⟨⟨-, hx⟩, hy, hn⟩ := hn
  rw [execs_cons, execs_append, execs_cons, execs_nil]
  obtain ⟨v1, -, -⟩ := mov_spec (P := P) s (.arg 1) xb
  have f1 := exec_fr (P := P) s (.mov (.arg 1) xb) rfl
  have ok1 := exec_ok hs hP (.mov (.arg 1) xb) rfl
  generalize exec P s (.mov (.arg 1) xb) = s1 at *
  have v1' : s1.loc xb = s.arg 1 := v1
  have e2 := movs_spec (P := P) (memOpds P.n xb) rs s1 (by rw [memOpds_length, hr])
    (Later.of_avoids hn fun o ho => memOpds_avoids hx ho)
  rw [memOpds_val s1 xb (by rw [v1', f1.mem, hl]), v1', f1.mem] at e2
  have f2 := movs_fr (P := P) (memOpds P.n xb) rs s1
  have ok2 := movs_ok hP (memOpds P.n xb) rs ok1
  generalize execs P s1 (movs (memOpds P.n xb) rs) = s2 at *
  obtain ⟨v3, -, -⟩ := mov_spec (P := P) s2 (.arg 2) yb
  have f3 := exec_fr (P := P) s2 (.mov (.arg 2) yb) rfl
  have ok3 := exec_ok ok2 hP (.mov (.arg 2) yb) rfl
  generalize exec P s2 (.mov (.arg 2) yb) = s3 at *
  refine ⟨ok3, by rw [f3.mem, f2.mem, f1.mem], by rw [f3.arg, f2.arg, f1.arg], ?_, ?_⟩
  · rw [hxs, locs_eq, f3.locs fun r hr' => by
      simp only [Instr.dst, List.mem_singleton]; rintro rfl; exact hy hr', e2]
  · rw [v3]; change s2.arg 2 = _; rw [f2.arg, f1.arg]

/-- The registers of `mul` with seven words. -/
def R7 : MulRegs where
  t0 := .R14
  t1 := .R13
  ts := [.CX, .BX, .SI, .DI, .R8]
  li := [.R14, .R13, .CX, .BX, .SI, .DI]
  last := .R8
  bp := .BP
  tmp := .R10
  xs := [.l .R11, .mem 1 .R9, .mem 2 .R9, .mem 3 .R9, .mem 4 .R9, .mem 5 .R9, .mem 6 .R9]

/-- The registers of `mul` with four words. -/
def R4 : MulRegs where
  t0 := .R14
  t1 := .R13
  ts := [.CX, .BX]
  li := [.R14, .R13, .CX]
  last := .BX
  bp := .BP
  tmp := .R12
  xs := [.l .DI, .l .R8, .l .R9, .l .R10]

/-- The registers of `mul` with two words. -/
def R2 : MulRegs where
  t0 := .R14
  t1 := .R13
  ts := []
  li := [.R14]
  last := .R13
  bp := .BP
  tmp := .R8
  xs := [.l .BX, .l .SI]

theorem pre_7w (hP : Consts P) (h7 : P.n = 7) {s : St} (hs : s.Ok) (hl : (s.mem (s.arg 1)).length = P.n) :
    Prelude P R7 .R12 s (execs P s [.mov (.arg 1) .R9, .mov (.mem 0 .R9) .R11, .mov (.arg 2) .R12]) := by
  refine ⟨execs_ok hP _ s hs rfl, rfl, rfl, ?_, rfl⟩
  have h1 := memOpds_val (P := P) (n := 7)
    (execs P s [.mov (.arg 1) .R9, .mov (.mem 0 .R9) .R11, .mov (.arg 2) .R12]) .R9 (hl.trans h7)
  exact h1

theorem R7_fits (h7 : P.n = 7) : R7.Fits P :=
  ⟨by decide, by rw [h7]; rfl, by rw [h7]; rfl, rfl, by decide⟩

theorem R4_fits (h4 : P.n = 4) : R4.Fits P :=
  ⟨by decide, by rw [h4]; rfl, by rw [h4]; rfl, rfl, by decide⟩

theorem R2_fits (h2 : P.n = 2) : R2.Fits P :=
  ⟨by decide, by rw [h2]; rfl, by rw [h2]; rfl, rfl, by decide⟩

section
variable (h : P.Good) (hP : Consts P) {s : St} (hs : s.Ok) {z x y : Nat} (hz : z < 2 ^ 64) (hx : x < 2 ^ 64)
  (hy : y < 2 ^ 64)
include h hP hs hz hx hy

theorem mul_2w_num (h2 : P.n = 2) (hf : P.full = false) (hl : (s.mem z).length = P.n) {a b : ZMod P.p}
    (hxa : MontForm P.p P.n (s.mem x) a) (hyb : MontForm P.p P.n (s.mem y) b) :
    ∃ w, MontForm P.p P.n w (a * b) ∧ call P mul_2w [z, x, y] s = Function.update s.mem z w :=
  mul_call h hP (h.spare_add hf) (R2_fits h2) (yb := .DI) (by decide) (bs := [.R9, .R10]) (by rw [h2]; rfl)
    (by decide) (pre := .mov (.arg 1) .CX :: (movs (memOpds P.n .CX) [.BX, .SI] ++ [.mov (.arg 2) .DI]))
    (fun s hs hl => pre_regs hP (rs := [.BX, .SI]) rfl (by rw [h2]; rfl) (by decide) hs hl) (L := 1)
    (by rw [h2]; rfl) (by rw [h2]; rfl) (by rw [h2]; rfl) hs hz hx hy hl hxa hyb

theorem mul_4w_num (h4 : P.n = 4) (hf : P.full = false) (hl : (s.mem z).length = P.n) {a b : ZMod P.p}
    (hxa : MontForm P.p P.n (s.mem x) a) (hyb : MontForm P.p P.n (s.mem y) b) :
    ∃ w, MontForm P.p P.n w (a * b) ∧ call P mul_4w [z, x, y] s = Function.update s.mem z w :=
  mul_call h hP (h.spare_add hf) (R4_fits h4) (yb := .R11) (by decide) (bs := [.SI, .R12, .R11, .DI])
    (by rw [h4]; rfl)
    (by decide) (pre := .mov (.arg 1) .SI :: (movs (memOpds P.n .SI) [.DI, .R8, .R9, .R10] ++ [.mov (.arg 2) .R11]))
    (fun s hs hl => pre_regs hP (rs := [.DI, .R8, .R9, .R10]) rfl (by rw [h4]; rfl) (by decide) hs hl) (L := 1)
    (by rw [h4]; rfl) (by rw [h4]; rfl) (by rw [h4]; rfl) hs hz hx hy hl hxa hyb

set_option maxRecDepth 8000 in
theorem mul_7w_num (h7 : P.n = 7) (hf : P.full = false) (hl : (s.mem z).length = P.n) {a b : ZMod P.p}
    (hxa : MontForm P.p P.n (s.mem x) a) (hyb : MontForm P.p P.n (s.mem y) b) :
    ∃ w, MontForm P.p P.n w (a * b) ∧ call P mul_7w [z, x, y] s = Function.update s.mem z w :=
  mul_call h hP (h.spare_add hf) (R7_fits h7) (yb := .R12) (by decide)
    (bs := [.R10, .R9, .R12, .R11, .AX, .DX, .slot 0]) (by rw [h7]; rfl)
    (by decide) (pre := [.mov (.arg 1) .R9, .mov (.mem 0 .R9) .R11, .mov (.arg 2) .R12])
    (fun s hs hl => pre_7w hP h7 hs hl) (L := 2)
    (by rw [h7]; rfl) (by rw [h7]; rfl) (by rw [h7]; rfl) hs hz hx hy hl hxa hyb

end

section
variable (h : P.Good) (hP : Consts P) {s : St} (hs : s.Ok) {x : Nat} (hx : x < 2 ^ 64)
  (hl : (s.mem x).length = P.n)
include h hP hs hx hl

theorem fromMont_2w_eq (h2 : P.n = 2) :
    call P fromMont_2w [x] s = Function.update s.mem x (P.fromMont (s.mem x)) :=
  fromMont_call h hP (t0 := .R13) (ts := [.R14]) (li := [.R13]) (last := .R14) (bs := [.CX, .BX])
    ⟨by rw [h2]; rfl, rfl, by decide⟩ (by rw [h2]; rfl) (by decide) (L := 2) (by rw [h2]; rfl) (by rw [h2]; rfl)
    (by rw [h2]; rfl) hs hx hl

theorem fromMont_4w_eq (h4 : P.n = 4) :
    call P fromMont_4w [x] s = Function.update s.mem x (P.fromMont (s.mem x)) :=
  fromMont_call h hP (t0 := .R13) (ts := [.R14, .CX, .BX]) (li := [.R13, .R14, .CX]) (last := .BX)
    (bs := [.SI, .DI, .R8, .R9])
    ⟨by rw [h4]; rfl, rfl, by decide⟩ (by rw [h4]; rfl) (by decide) (L := 2) (by rw [h4]; rfl) (by rw [h4]; rfl)
    (by rw [h4]; rfl) hs hx hl

set_option maxRecDepth 8000 in
theorem fromMont_7w_eq (h7 : P.n = 7) :
    call P fromMont_7w [x] s = Function.update s.mem x (P.fromMont (s.mem x)) :=
  fromMont_call h hP (t0 := .R13) (ts := [.R14, .CX, .BX, .SI, .DI, .R8])
    (li := [.R13, .R14, .CX, .BX, .SI, .DI]) (last := .R8)
    (bs := [.R9, .R10, .R11, .R12, .DX, .AX, .slot 0])
    ⟨by rw [h7]; rfl, rfl, by decide⟩ (by rw [h7]; rfl) (by decide) (L := 3) (by rw [h7]; rfl) (by rw [h7]; rfl)
    (by rw [h7]; rfl) hs hx hl

theorem reduce_2w_eq (h2 : P.n = 2) :
    call P reduce_2w [x] s = Function.update s.mem x (P.reduce (s.mem x)) :=
  reduce_call h hP hs hx hl (ds := [.DX, .CX]) (b1 := [.BX, .SI])
    ⟨by decide, by decide, by rw [h2]; rfl, by rw [h2]; rfl⟩ (by rw [h2]; rfl) (by rw [h2]; rfl)

theorem reduce_4w_eq (h4 : P.n = 4) :
    call P reduce_4w [x] s = Function.update s.mem x (P.reduce (s.mem x)) :=
  reduce_call h hP hs hx hl (ds := [.DX, .CX, .BX, .SI]) (b1 := [.DI, .R8, .R9, .R10])
    ⟨by decide, by decide, by rw [h4]; rfl, by rw [h4]; rfl⟩ (by rw [h4]; rfl) (by rw [h4]; rfl)

theorem reduce_7w_eq (h7 : P.n = 7) :
    call P reduce_7w [x] s = Function.update s.mem x (P.reduce (s.mem x)) :=
  reduce_call h hP hs hx hl (ds := [.DX, .CX, .BX, .SI, .DI, .R8, .R9])
    (b1 := [.R10, .R11, .R12, .R13, .R14, .slot 0, .slot 1])
    ⟨by decide, by decide, by rw [h7]; rfl, by rw [h7]; rfl⟩ (by rw [h7]; rfl) (by rw [h7]; rfl)

variable (hf : P.full = false)
include hf

theorem mulBy3_2w_eq (h2 : P.n = 2) : call P mulBy3_2w [x] s =
    Function.update s.mem x (P.add (P.add (s.mem x) (s.mem x)) (s.mem x)) :=
  mulBy3_call h hP hf hs hx hl (ds := [.DX, .CX]) (b1 := [.BX, .SI]) (b2 := [.DI, .R8])
    ⟨by decide, by decide, by rw [h2]; rfl, by rw [h2]; rfl⟩
    ⟨by decide, by decide, by rw [h2]; rfl, by rw [h2]; rfl⟩ (by rw [h2]; rfl) (by rw [h2]; rfl)

theorem mulBy3_4w_eq (h4 : P.n = 4) : call P mulBy3_4w [x] s =
    Function.update s.mem x (P.add (P.add (s.mem x) (s.mem x)) (s.mem x)) :=
  mulBy3_call h hP hf hs hx hl (ds := [.DX, .CX, .BX, .SI]) (b1 := [.DI, .R8, .R9, .R10])
    (b2 := [.R11, .R12, .R13, .R14])
    ⟨by decide, by decide, by rw [h4]; rfl, by rw [h4]; rfl⟩
    ⟨by decide, by decide, by rw [h4]; rfl, by rw [h4]; rfl⟩ (by rw [h4]; rfl) (by rw [h4]; rfl)

theorem mulBy3_7w_eq (h7 : P.n = 7) : call P mulBy3_7w [x] s =
    Function.update s.mem x (P.add (P.add (s.mem x) (s.mem x)) (s.mem x)) :=
  have R : Regs P [.DX, .CX, .BX, .SI, .DI, .R8, .R9] [] [.R10, .R11, .R12, .R13, .R14, .slot 0, .slot 1] :=
    ⟨by decide, by decide, by rw [h7]; rfl, by rw [h7]; rfl⟩
  mulBy3_call h hP hf hs hx hl R R (by rw [h7]; rfl) (by rw [h7]; rfl)

theorem mulBy5_2w_eq (h2 : P.n = 2) : call P mulBy5_2w [x] s = Function.update s.mem x
    (P.add (P.add (P.add (s.mem x) (s.mem x)) (P.add (s.mem x) (s.mem x))) (s.mem x)) :=
  mulBy5_call h hP hf hs hx hl (ds := [.DX, .CX]) (b1 := [.BX, .SI]) (b2 := [.DI, .R8]) (b3 := [.R9, .R10])
    ⟨by decide, by decide, by rw [h2]; rfl, by rw [h2]; rfl⟩
    ⟨by decide, by decide, by rw [h2]; rfl, by rw [h2]; rfl⟩
    ⟨by decide, by decide, by rw [h2]; rfl, by rw [h2]; rfl⟩ (by rw [h2]; rfl) (by rw [h2]; rfl)

theorem mulBy5_4w_eq (h4 : P.n = 4) : call P mulBy5_4w [x] s = Function.update s.mem x
    (P.add (P.add (P.add (s.mem x) (s.mem x)) (P.add (s.mem x) (s.mem x))) (s.mem x)) :=
  mulBy5_call h hP hf hs hx hl (ds := [.DX, .CX, .BX, .SI]) (b1 := [.DI, .R8, .R9, .R10])
    (b2 := [.R11, .R12, .R13, .R14]) (b3 := [.DI, .R8, .R9, .R10])
    ⟨by decide, by decide, by rw [h4]; rfl, by rw [h4]; rfl⟩
    ⟨by decide, by decide, by rw [h4]; rfl, by rw [h4]; rfl⟩
    ⟨by decide, by decide, by rw [h4]; rfl, by rw [h4]; rfl⟩ (by rw [h4]; rfl) (by rw [h4]; rfl)

theorem mulBy5_7w_eq (h7 : P.n = 7) : call P mulBy5_7w [x] s = Function.update s.mem x
    (P.add (P.add (P.add (s.mem x) (s.mem x)) (P.add (s.mem x) (s.mem x))) (s.mem x)) :=
  have R : Regs P [.DX, .CX, .BX, .SI, .DI, .R8, .R9] [] [.R10, .R11, .R12, .R13, .R14, .slot 0, .slot 1] :=
    ⟨by decide, by decide, by rw [h7]; rfl, by rw [h7]; rfl⟩
  mulBy5_call h hP hf hs hx hl R R R (by rw [h7]; rfl) (by rw [h7]; rfl)

theorem mulBy13_2w_eq (h2 : P.n = 2) : call P mulBy13_2w [x] s = Function.update s.mem x
    (let v := s.mem x
     let v4 := P.add (P.add v v) (P.add v v)
     P.add (P.add (P.add v4 v4) v4) v) :=
  mulBy13_call h hP hf hs hx hl (ds := [.DX, .CX]) (cs := [.DI, .R8]) (b1 := [.BX, .SI]) (b2 := [.DI, .R8])
    (b3 := [.BX, .SI])
    ⟨by decide, by decide, by rw [h2]; rfl, by rw [h2]; rfl⟩
    ⟨by decide, by decide, by rw [h2]; rfl, by rw [h2]; rfl⟩
    ⟨by decide, by decide, by rw [h2]; rfl, by rw [h2]; rfl⟩ (by rw [h2]; rfl) (by decide)
    (by rw [h2]; rfl) (by rw [h2]; rfl)

theorem mulBy13_4w_eq (h4 : P.n = 4) : call P mulBy13_4w [x] s = Function.update s.mem x
    (let v := s.mem x
     let v4 := P.add (P.add v v) (P.add v v)
     P.add (P.add (P.add v4 v4) v4) v) :=
  mulBy13_call h hP hf hs hx hl (ds := [.DX, .CX, .BX, .SI]) (cs := [.R11, .R12, .R13, .R14])
    (b1 := [.DI, .R8, .R9, .R10]) (b2 := [.R11, .R12, .R13, .R14]) (b3 := [.DI, .R8, .R9, .R10])
    ⟨by decide, by decide, by rw [h4]; rfl, by rw [h4]; rfl⟩
    ⟨by decide, by decide, by rw [h4]; rfl, by rw [h4]; rfl⟩
    ⟨by decide, by decide, by rw [h4]; rfl, by rw [h4]; rfl⟩ (by rw [h4]; rfl) (by decide)
    (by rw [h4]; rfl) (by rw [h4]; rfl)

theorem mulBy13_7w_eq (h7 : P.n = 7) : call P mulBy13_7w [x] s = Function.update s.mem x
    (let v := s.mem x
     let v4 := P.add (P.add v v) (P.add v v)
     P.add (P.add (P.add v4 v4) v4) v) :=
  mulBy13_call h hP hf hs hx hl (ds := [.DX, .CX, .BX, .SI, .DI, .R8, .R9])
    (cs := [.slot 2, .slot 3, .slot 4, .slot 5, .slot 6, .slot 7, .slot 8])
    (b1 := [.R10, .R11, .R12, .R13, .R14, .slot 0, .slot 1])
    (b2 := [.slot 2, .slot 3, .slot 4, .slot 5, .slot 6, .slot 7, .slot 8])
    (b3 := [.R10, .R11, .R12, .R13, .R14, .slot 0, .slot 1])
    ⟨by decide, by decide, by rw [h7]; rfl, by rw [h7]; rfl⟩
    ⟨by decide, by decide, by rw [h7]; rfl, by rw [h7]; rfl⟩
    ⟨by decide, by decide, by rw [h7]; rfl, by rw [h7]; rfl⟩ (by rw [h7]; rfl) (by decide)
    (by rw [h7]; rfl) (by rw [h7]; rfl)

variable {y : Nat} (hy : y < 2 ^ 64) (hly : (s.mem y).length = P.n)
include hy hly

theorem butterfly_2w_eq (h2 : P.n = 2) : call P butterfly_2w [x, y] s =
    Function.update (Function.update s.mem y (P.sub (s.mem x) (s.mem y))) x (P.add (s.mem x) (s.mem y)) :=
  butterfly_call h hP hf (ds := [.DX, .CX]) (es := [.BX, .SI]) (gs := [.DI, .R8]) (by rw [h2]; rfl)
    (by rw [h2]; rfl) (by rw [h2]; rfl) (by decide) (by rw [h2]; rfl) (by rw [h2]; rfl) hs hx hy hl hly

theorem butterfly_4w_eq (h4 : P.n = 4) : call P butterfly_4w [x, y] s =
    Function.update (Function.update s.mem y (P.sub (s.mem x) (s.mem y))) x (P.add (s.mem x) (s.mem y)) :=
  butterfly_call h hP hf (ds := [.DX, .CX, .BX, .SI]) (es := [.DI, .R8, .R9, .R10])
    (gs := [.R11, .R12, .R13, .R14]) (by rw [h4]; rfl)
    (by rw [h4]; rfl) (by rw [h4]; rfl) (by decide) (by rw [h4]; rfl) (by rw [h4]; rfl) hs hx hy hl hly

theorem butterfly_7w_eq (h7 : P.n = 7) : call P butterfly_7w [x, y] s =
    Function.update (Function.update s.mem y (P.sub (s.mem x) (s.mem y))) x (P.add (s.mem y) (s.mem x)) :=
  butterfly7_call h hP hf (ds := [.DX, .CX, .BX, .SI, .DI, .R8, .R9])
    (es := [.R10, .R11, .R12, .R13, .R14, .slot 0, .slot 1]) (by rw [h7]; rfl)
    (by rw [h7]; rfl) (by decide) (by rw [h7]; rfl) (by rw [h7]; rfl) (by rw [h7]; rfl) (by rw [h7]; rfl)
    (by rw [h7]; rfl) hs hx hy hl hly

end

end Ringo.Amd64
