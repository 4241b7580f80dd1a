import Verif.Proof.AsmProg
import Verif.Model.AsmAmd64

/-!
# The amd64 assembly: whole functions
-/

namespace Ringo.Amd64

variable {P : FieldPkg}

/-- A straight program. -/
theorem run_straight (a : List Instr) (s : St) (h : a.all Instr.straight = true) :
    run P (a ++ [.ret]) s = execs P s a := by
  rw [run_append a _ s h, run_ret]

theorem add_eq (hf : P.full = false) (x y : List Nat) : P.add x y = P.reduce (addChain x y 0).1 := by
  rw [FieldPkg.add, hf]; simp

theorem locs_eq (s : St) (ds : List Loc) : (ds.map Opd.l).map (s.rd P) = ds.map s.loc := by
  rw [List.map_map]; rfl

/-! ### Additions that end with REDUCE -/

/-- An addition modulo the modulus. -/
def addRed (n : Nat) (os : List Opd) (ds bs : List Loc) : List Instr :=
  adds os ds ++ reduceCode (qOpds n) ds bs

theorem addRed_fr (n : Nat) (os : List Opd) (ds bs : List Loc) (s : St) :
    Fr (ds ++ bs) s (execs P s (addRed n os ds bs)) := by
  rw [addRed, execs_append]
  exact ((adds_fr os ds s).mono (by simp)).trans (reduceCode_fr _ _ _ _)

theorem addRed_ok (hP : Consts P) (n : Nat) (os : List Opd) (ds bs : List Loc) {s : St} (h : s.Ok) :
    (execs P s (addRed n os ds bs)).Ok := by
  rw [addRed, execs_append]
  exact reduceCode_ok hP _ _ _ (adds_ok hP _ _ h)

theorem addRed_spec (h : P.Good) (hP : Consts P) (hf : P.full = false) {s : St} (hs : s.Ok) {os : List Opd}
    {ds bs : List Loc} (ho : os.length = P.n) (hd : ds.length = P.n) (hb : bs.length = P.n)
    (hn : (ds ++ bs).Nodup) (hL : Later os ds) :
    ds.map (execs P s (addRed P.n os ds bs)).loc = P.add (ds.map s.loc) (os.map (s.rd P)) := by
  rw [addRed, execs_append, reduceCode_spec h (adds_ok hP _ _ hs) hd hb hn,
    adds_spec os ds s (ho.trans hd.symm) hL, add_eq hf]

/-! ### MulBy3, MulBy5, MulBy13, reduce -/

/-- Where a function that works on one element stands: the pointer `x` is in `AX`, the registers `ds` have
the value `v`, a copy of `w` is in `cs`, and the memory is `m`. -/
structure At (ds cs : List Loc) (m : Mem) (x : Nat) (v w : List Nat) (s : St) : Prop where
  ok : s.Ok
  mem : s.mem = m
  ax : s.loc .AX = x
  val : ds.map s.loc = v
  cpy : cs.map s.loc = w

/-- The entry of such a function. -/
def load (n : Nat) (ds : List Loc) : List Instr := .mov (.arg 0) .AX :: movs (memOpds n .AX) ds

/-- What the registers of such a function are. -/
structure Regs (P : FieldPkg) (ds cs bs : List Loc) : Prop where
  nodup : (Loc.AX :: (ds ++ bs)).Nodup
  cs : ∀ r ∈ cs, r ∉ ds ++ bs
  ds : ds.length = P.n
  bs : bs.length = P.n

theorem load_at (hP : Consts P) {s : St} (hs : s.Ok) {ds : List Loc} (hd : ds.length = P.n)
    (hn : (Loc.AX :: ds).Nodup) (hm : (s.mem (s.arg 0)).length = P.n) :
    At ds [] s.mem (s.arg 0) (s.mem (s.arg 0)) [] (execs P s (load P.n ds)) := by
  rw [List.nodup_cons] at hn
  rw [load, execs_cons]
  obtain ⟨v1, -, -⟩ := mov_spec (P := P) s (.arg 0) .AX
  have f1 := exec_fr (P := P) s (.mov (.arg 0) .AX) rfl
  have ok1 := exec_ok hs hP (.mov (.arg 0) .AX) rfl
  generalize exec P s (.mov (.arg 0) .AX) = s1 at *
  have f2 := movs_fr (P := P) (memOpds P.n .AX) ds s1
  have e := movs_spec (P := P) (memOpds P.n .AX) ds s1 (by rw [memOpds_length, hd])
    (Later.of_avoids hn.2 fun o ho => memOpds_avoids hn.1 ho)
  have v1' : s1.loc .AX = s.arg 0 := v1
  refine ⟨movs_ok hP _ _ ok1, f2.mem.trans f1.mem, (f2.loc _ hn.1).trans v1', ?_, rfl⟩
  rw [e, memOpds_val s1 .AX (by rw [v1', f1.mem, hm]), v1', f1.mem]

theorem At.dbl (h : P.Good) (hP : Consts P) (hf : P.full = false) {ds cs bs : List Loc} {m : Mem} {x : Nat}
    {v w : List Nat} {s : St} (hs : At ds cs m x v w s) (hR : Regs P ds cs bs) :
    At ds cs m x (P.add v v) w (execs P s (addRed P.n (ds.map .l) ds bs)) := by
  have hn := hR.nodup
  rw [List.nodup_cons] at hn
  have f := addRed_fr (P := P) P.n (ds.map .l) ds bs s
  refine ⟨addRed_ok hP _ _ _ _ hs.ok, f.mem.trans hs.mem, (f.loc _ hn.1).trans hs.ax, ?_,
    (f.locs hR.cs).trans hs.cpy⟩
  rw [addRed_spec h hP hf hs.ok (by rw [List.length_map, hR.ds]) hR.ds hR.bs hn.2
    (Later.self (List.nodup_append.1 hn.2).1), locs_eq, hs.val]

theorem At.addm (h : P.Good) (hP : Consts P) (hf : P.full = false) {ds cs bs : List Loc} {m : Mem} {x : Nat}
    {v w : List Nat} {s : St} (hs : At ds cs m x v w s) (hR : Regs P ds cs bs) (hm : (m x).length = P.n) :
    At ds cs m x (P.add v (m x)) w (execs P s (addRed P.n (memOpds P.n .AX) ds bs)) := by
  have hn := hR.nodup
  rw [List.nodup_cons] at hn
  have f := addRed_fr (P := P) P.n (memOpds P.n .AX) ds bs s
  refine ⟨addRed_ok hP _ _ _ _ hs.ok, f.mem.trans hs.mem, (f.loc _ hn.1).trans hs.ax, ?_,
    (f.locs hR.cs).trans hs.cpy⟩
  rw [addRed_spec h hP hf hs.ok (memOpds_length _ _) hR.ds hR.bs hn.2
    (Later.of_avoids (List.nodup_append.1 hn.2).1 fun o ho =>
      memOpds_avoids (fun hh => hn.1 (by simp [hh])) ho), hs.val,
    memOpds_val s .AX (by rw [hs.ax, hs.mem, hm]), hs.ax, hs.mem]

theorem At.addc (h : P.Good) (hP : Consts P) (hf : P.full = false) {ds cs bs : List Loc} {m : Mem} {x : Nat}
    {v w : List Nat} {s : St} (hs : At ds cs m x v w s) (hR : Regs P ds cs bs) (hc : cs.length = P.n) :
    At ds cs m x (P.add v w) w (execs P s (addRed P.n (cs.map .l) ds bs)) := by
  have hn := hR.nodup
  rw [List.nodup_cons] at hn
  have f := addRed_fr (P := P) P.n (cs.map .l) ds bs s
  refine ⟨addRed_ok hP _ _ _ _ hs.ok, f.mem.trans hs.mem, (f.loc _ hn.1).trans hs.ax, ?_,
    (f.locs hR.cs).trans hs.cpy⟩
  rw [addRed_spec h hP hf hs.ok (by rw [List.length_map, hc]) hR.ds hR.bs hn.2
    (Later.of_avoids (List.nodup_append.1 hn.2).1 fun o ho => by
      obtain ⟨r, hr, rfl⟩ := List.mem_map.1 ho
      simp only [Opd.avoids, decide_eq_true_eq]
      exact fun hh => hR.cs r hr (by simp [hh])), locs_eq, hs.val, hs.cpy]

theorem At.copy (hP : Consts P) {ds cs cs' : List Loc} {m : Mem} {x : Nat} {v w : List Nat} {s : St}
    (hs : At ds cs m x v w s) (hl : ds.length = cs'.length) (hn : (Loc.AX :: (ds ++ cs')).Nodup) :
    At ds cs' m x v v (execs P s (movs (ds.map .l) cs')) := by
  rw [List.nodup_cons, List.nodup_append] at hn
  have f := movs_fr (P := P) (ds.map .l) cs' s
  refine ⟨movs_ok hP _ _ hs.ok, f.mem.trans hs.mem, (f.loc _ (fun hh => hn.1 (by simp [hh]))).trans hs.ax,
    (f.locs fun r hr hh => hn.2.2.2 r hr r hh rfl).trans hs.val, ?_⟩
  rw [movs_spec (ds.map .l) cs' s (by rw [List.length_map, hl])
    (Later.of_avoids hn.2.2.1 fun o ho => by
      obtain ⟨r, hr, rfl⟩ := List.mem_map.1 ho
      simp only [Opd.avoids, decide_eq_true_eq]
      exact fun hh => hn.2.2.2 r hr r hh rfl), locs_eq, hs.val]

theorem At.red (h : P.Good) (hP : Consts P) {ds cs bs : List Loc} {m : Mem} {x : Nat}
    {v w : List Nat} {s : St} (hs : At ds cs m x v w s) (hR : Regs P ds cs bs) :
    At ds cs m x (P.reduce v) w (execs P s (reduceCode (qOpds P.n) ds bs)) := by
  have hn := hR.nodup
  rw [List.nodup_cons] at hn
  have f := reduceCode_fr (P := P) (qOpds P.n) ds bs s
  refine ⟨reduceCode_ok hP _ _ _ hs.ok, f.mem.trans hs.mem, (f.loc _ hn.1).trans hs.ax, ?_,
    (f.locs hR.cs).trans hs.cpy⟩
  rw [reduceCode_spec h hs.ok hR.ds hR.bs hn.2, hs.val]

theorem At.store {ds cs : List Loc} {m : Mem} {x : Nat} {v w : List Nat} {s : St}
    (hs : At ds cs m x v w s) (hl : (m x).length = ds.length) :
    (execs P s (storesFrom .AX 0 ds)).mem = Function.update m x v := by
  rw [stores_spec .AX ds s (by rw [hs.ax, hs.mem, hl])]
  simp only [hs.ax, hs.mem, hs.val]

/-- A call of a straight function. -/
theorem call_straight (code : List Instr) (args : List Nat) (s : St) (body : List Instr)
    (hc : code = body ++ [.ret]) (hb : body.all Instr.straight = true) :
    call P code args s = (execs P { s with arg := fun i => args.getD i 0 } body).mem := by
  rw [call, hc, run_straight _ _ hb]

/-- The state in which a function starts. -/
theorem start_ok {s : St} (hs : s.Ok) (args : List Nat) (ha : Words args) :
    St.Ok { s with arg := fun i => args.getD i 0 } :=
  ⟨hs.loc, hs.cf, hs.of, hs.mem, fun i => getD_word ha i⟩

theorem reduce_call (h : P.Good) (hP : Consts P) {s : St} (hs : s.Ok) {x : Nat} (hx : x < 2 ^ 64)
    (hl : (s.mem x).length = P.n) {ds b1 : List Loc} (R1 : Regs P ds [] b1) {code : List Instr}
    (hc : code = (load P.n ds ++ (reduceCode (qOpds P.n) ds b1 ++ storesFrom .AX 0 ds)) ++ [.ret])
    (hb : (load P.n ds ++ (reduceCode (qOpds P.n) ds b1 ++ storesFrom .AX 0 ds)).all Instr.straight = true) :
    call P code [x] s = Function.update s.mem x (P.reduce (s.mem x)) := by
  rw [call_straight code [x] s _ hc hb]
  have hs' := start_ok hs [x] (Words.cons hx Words.nil)
  have hn := R1.nodup
  have a0 := load_at hP hs' R1.ds
    (by rw [List.nodup_cons] at hn ⊢; exact ⟨fun hh => hn.1 (by simp [hh]), (List.nodup_append.1 hn.2).1⟩) hl
  rw [execs_append, execs_append]
  exact (a0.red h hP R1).store (hl.trans R1.ds.symm)

/-- The body of `MulBy3`. -/
def mulBy3Body (n : Nat) (ds b1 b2 : List Loc) : List Instr :=
  load n ds ++ (addRed n (ds.map .l) ds b1 ++ (addRed n (memOpds n .AX) ds b2 ++ storesFrom .AX 0 ds))

theorem nodup_ds {ds bs : List Loc} (hn : (Loc.AX :: (ds ++ bs)).Nodup) : (Loc.AX :: ds).Nodup := by
  rw [List.nodup_cons] at hn ⊢; exact ⟨fun hh => hn.1 (by simp [hh]), (List.nodup_append.1 hn.2).1⟩

theorem mulBy3_call (h : P.Good) (hP : Consts P) (hf : P.full = false) {s : St} (hs : s.Ok) {x : Nat}
    (hx : x < 2 ^ 64) (hl : (s.mem x).length = P.n) {ds b1 b2 : List Loc} (R1 : Regs P ds [] b1)
    (R2 : Regs P ds [] b2) {code : List Instr} (hc : code = mulBy3Body P.n ds b1 b2 ++ [.ret])
    (hb : (mulBy3Body P.n ds b1 b2).all Instr.straight = true) :
    call P code [x] s = Function.update s.mem x (P.add (P.add (s.mem x) (s.mem x)) (s.mem x)) := by
  rw [call_straight code [x] s _ hc hb]
  have hs' := start_ok hs [x] (Words.cons hx Words.nil)
  have a0 := load_at hP hs' R1.ds (nodup_ds R1.nodup) hl
  rw [mulBy3Body, execs_append, execs_append, execs_append]
  exact ((a0.dbl h hP hf R1).addm h hP hf R2 hl).store (hl.trans R1.ds.symm)

/-- The body of `MulBy5`. -/
def mulBy5Body (n : Nat) (ds b1 b2 b3 : List Loc) : List Instr :=
  load n ds ++ (addRed n (ds.map .l) ds b1 ++ (addRed n (ds.map .l) ds b2 ++
    (addRed n (memOpds n .AX) ds b3 ++ storesFrom .AX 0 ds)))

theorem mulBy5_call (h : P.Good) (hP : Consts P) (hf : P.full = false) {s : St} (hs : s.Ok) {x : Nat}
    (hx : x < 2 ^ 64) (hl : (s.mem x).length = P.n) {ds b1 b2 b3 : List Loc} (R1 : Regs P ds [] b1)
    (R2 : Regs P ds [] b2) (R3 : Regs P ds [] b3) {code : List Instr}
    (hc : code = mulBy5Body P.n ds b1 b2 b3 ++ [.ret])
    (hb : (mulBy5Body P.n ds b1 b2 b3).all Instr.straight = true) :
    call P code [x] s = Function.update s.mem x
      (P.add (P.add (P.add (s.mem x) (s.mem x)) (P.add (s.mem x) (s.mem x))) (s.mem x)) := by
  rw [call_straight code [x] s _ hc hb]
  have hs' := start_ok hs [x] (Words.cons hx Words.nil)
  have a0 := load_at hP hs' R1.ds (nodup_ds R1.nodup) hl
  rw [mulBy5Body, execs_append, execs_append, execs_append, execs_append]
  exact (((a0.dbl h hP hf R1).dbl h hP hf R2).addm h hP hf R3 hl).store (hl.trans R1.ds.symm)

/-- The body of `MulBy13`. -/
def mulBy13Body (n : Nat) (ds cs b1 b2 b3 : List Loc) : List Instr :=
  load n ds ++ (addRed n (ds.map .l) ds b1 ++ (addRed n (ds.map .l) ds b2 ++ (movs (ds.map .l) cs ++
    (addRed n (ds.map .l) ds b3 ++ (addRed n (cs.map .l) ds b3 ++
    (addRed n (memOpds n .AX) ds b3 ++ storesFrom .AX 0 ds))))))

theorem mulBy13_call (h : P.Good) (hP : Consts P) (hf : P.full = false) {s : St} (hs : s.Ok) {x : Nat}
    (hx : x < 2 ^ 64) (hl : (s.mem x).length = P.n) {ds cs b1 b2 b3 : List Loc} (R1 : Regs P ds [] b1)
    (R2 : Regs P ds [] b2) (R3 : Regs P ds cs b3) (hcl : cs.length = P.n) (hcn : (Loc.AX :: (ds ++ cs)).Nodup)
    {code : List Instr} (hc : code = mulBy13Body P.n ds cs b1 b2 b3 ++ [.ret])
    (hb : (mulBy13Body P.n ds cs b1 b2 b3).all Instr.straight = true) :
    call P code [x] s = Function.update s.mem x
      (let v := s.mem x
       let v4 := P.add (P.add v v) (P.add v v)
       P.add (P.add (P.add v4 v4) v4) v) := by
  rw [call_straight code [x] s _ hc hb]
  have hs' := start_ok hs [x] (Words.cons hx Words.nil)
  have a0 := load_at hP hs' R1.ds (nodup_ds R1.nodup) hl
  rw [mulBy13Body, execs_append, execs_append, execs_append, execs_append, execs_append, execs_append,
    execs_append]
  exact ((((((a0.dbl h hP hf R1).dbl h hP hf R2).copy hP (R1.ds.trans hcl.symm) hcn).dbl h hP hf R3).addc h hP hf
    R3 hcl).addm h hP hf R3 hl).store (hl.trans R1.ds.symm)

/-! ### fromMont -/

/-- One step of `fromMont` (element_4w_amd64.s:326-352). -/
def fmStep (n : Nat) (t0 : Loc) (ts : List Loc) (last : Loc) : List Instr :=
  .xor (.l .DX) .DX :: divShift t0 ts .BP (qOpds n) .AX last

/-- The registers of `fromMont`. -/
structure FmRegs (P : FieldPkg) (t0 : Loc) (ts li : List Loc) (last : Loc) : Prop where
  len : ts.length + 1 = P.n
  last : t0 :: ts = li ++ [last]
  nodup : (Loc.AX :: Loc.DX :: Loc.BP :: t0 :: ts).Nodup

theorem fmStep_fr {t0 : Loc} {ts li : List Loc} {last : Loc} (hR : FmRegs P t0 ts li last) (s : St) :
    Fr (.AX :: .DX :: .BP :: t0 :: ts) s (execs P s (fmStep P.n t0 ts last)) := by
  rw [fmStep, execs_cons]
  exact ((exec_fr s (.xor (.l .DX) .DX) rfl).mono (by simp [Instr.dst])).trans
    (divShift_fr _ .BP _ .AX (by rw [hR.last]; simp))

theorem fmStep_ok (hP : Consts P) {t0 : Loc} {ts : List Loc} {last : Loc} {s : St} (hs : s.Ok) :
    (execs P s (fmStep P.n t0 ts last)).Ok := by
  rw [fmStep, execs_cons]
  exact divShift_ok hP (exec_ok hs hP _ rfl) _ _ _ _ _ _

theorem fmStep_spec (h : P.Good) (hP : Consts P) {t0 : Loc} {ts li : List Loc} {last : Loc}
    (hR : FmRegs P t0 ts li last) {s : St} (hs : s.Ok) :
    ∃ m < 2 ^ 64, 2 ^ 64 * wv ((t0 :: ts).map (execs P s (fmStep P.n t0 ts last)).loc) =
      wv ((t0 :: ts).map s.loc) + m * P.p := by
  have hn := hR.nodup
  simp only [List.nodup_cons, List.mem_cons, not_or] at hn
  rw [fmStep, execs_cons]
  have f1 := exec_fr (P := P) s (.xor (.l .DX) .DX) rfl
  have ok1 := exec_ok hs hP (.xor (.l .DX) .DX) rfl
  generalize exec P s (.xor (.l .DX) .DX) = s1 at *
  have e1 : (t0 :: ts).map s1.loc = (t0 :: ts).map s.loc := f1.locs fun r hr => by
    simp only [Instr.dst, List.mem_singleton]
    rintro rfl
    simp only [List.mem_cons] at hr
    tauto
  obtain ⟨m, hm, c, e⟩ := divShift_spec h (s := s1) (t0 := t0) (ts := ts) (li := li) (tmp := .BP) (a := .AX)
    (last := last) rfl hR.len hR.last (by simp only [List.nodup_cons]; tauto)
    (by simp only [List.mem_cons, not_or]; tauto) (by simp only [List.mem_cons, not_or]; tauto)
    (by simp only [List.mem_cons, not_or]; exact ⟨fun hh => hn.1.2.1 hh.symm, fun hh => hn.2.1.1 hh.symm, by tauto⟩)
    (by simp only [List.mem_cons, not_or]; tauto)
  rw [if_pos rfl, Nat.mul_zero, Nat.add_zero, e1] at e
  have hT := wv_lt (hs.words (t0 :: ts))
  rw [List.length_map, List.length_cons, hR.len] at hT
  have hp := FieldPkg.p_lt h
  have hc : c = 0 := by
    rcases Nat.eq_zero_or_pos c with h0 | h0
    · exact h0
    exfalso
    have h3 : m * P.p ≤ (2 ^ 64 - 1) * P.p := Nat.mul_le_mul_right _ (by omega)
    have h4 : (2 ^ 64) ^ P.n ≤ (2 ^ 64) ^ P.n * c := Nat.le_mul_of_pos_right _ h0
    generalize (2 ^ 64) ^ P.n = B at *
    have h5 : 2 ^ 64 * B ≤ wv ((t0 :: ts).map s.loc) + m * P.p := by
      rw [← e]; exact Nat.mul_le_mul_left _ (by omega)
    omega
  rw [hc, Nat.mul_zero, Nat.add_zero] at e
  exact ⟨m, hm, e⟩

/-- All steps. -/
def fmSteps (n : Nat) (t0 : Loc) (ts : List Loc) (last : Loc) : Nat → List Instr
  | 0 => []
  | k + 1 => fmStep n t0 ts last ++ fmSteps n t0 ts last k

theorem fmSteps_fr {t0 : Loc} {ts li : List Loc} {last : Loc} (hR : FmRegs P t0 ts li last) :
    ∀ (k : Nat) (s : St), Fr (.AX :: .DX :: .BP :: t0 :: ts) s (execs P s (fmSteps P.n t0 ts last k))
  | 0, s => Fr.refl _ s
  | k + 1, s => by
    rw [fmSteps, execs_append]; exact (fmStep_fr hR s).trans (fmSteps_fr hR k _)

theorem fmSteps_ok (hP : Consts P) {t0 : Loc} {ts : List Loc} {last : Loc} :
    ∀ (k : Nat) {s : St}, s.Ok → (execs P s (fmSteps P.n t0 ts last k)).Ok
  | 0, _, h => h
  | k + 1, s, h => by
    rw [fmSteps, execs_append]; exact fmSteps_ok hP k (fmStep_ok hP h)

theorem fmSteps_spec (h : P.Good) (hP : Consts P) {t0 : Loc} {ts li : List Loc} {last : Loc}
    (hR : FmRegs P t0 ts li last) : ∀ (k : Nat) {s : St}, s.Ok →
    ∃ M < (2 ^ 64) ^ k, (2 ^ 64) ^ k * wv ((t0 :: ts).map (execs P s (fmSteps P.n t0 ts last k)).loc) =
      wv ((t0 :: ts).map s.loc) + M * P.p
  | 0, s, _ => ⟨0, by simp, by simp [fmSteps, execs_nil]⟩
  | k + 1, s, hs => by
    obtain ⟨m, hm, e⟩ := fmStep_spec h hP hR hs
    obtain ⟨M, hM, e'⟩ := fmSteps_spec h hP hR k (fmStep_ok (t0 := t0) (ts := ts) (last := last) hP hs)
    rw [fmSteps, execs_append]
    refine ⟨m + 2 ^ 64 * M, ?_, ?_⟩
    · rw [pow_succ (2 ^ 64)]
      generalize (2 ^ 64) ^ k = B at *
      omega
    · rw [pow_succ (2 ^ 64)]
      generalize (2 : Nat) ^ 64 = B at *
      linear_combination e + B * e'

/-- The numbers behind `fromMont`. -/
theorem fm_num (h : P.Good) {z T : Nat} {M : Nat} (hz : z < (2 ^ 64) ^ P.n) (hM : M < (2 ^ 64) ^ P.n)
    (e : (2 ^ 64) ^ P.n * T = z + M * P.p) : T < 2 * P.p := by
  have hp := h.prime.two_le
  have h2 : M * P.p + P.p ≤ (2 ^ 64) ^ P.n * P.p := by
    calc M * P.p + P.p = (M + 1) * P.p := by ring
      _ ≤ _ := Nat.mul_le_mul_right _ hM
  generalize (2 ^ 64) ^ P.n = B at *
  by_contra hh
  have : B * (2 * P.p) ≤ B * T := Nat.mul_le_mul_left _ (by omega)
  have h3 : B * (2 * P.p) = B * P.p + B * P.p := by ring
  have h4 : B * 1 ≤ B * P.p := Nat.mul_le_mul_left _ (by omega)
  omega

/-- The straight part of `fromMont`. -/
def fmBody (n : Nat) (t0 : Loc) (ts : List Loc) (last : Loc) (bs : List Loc) : List Instr :=
  .mov (.arg 0) .DX :: (movs (memOpds n .DX) (t0 :: ts) ++ (fmSteps n t0 ts last n ++
    (reduceCode (qOpds n) (t0 :: ts) bs ++ (.mov (.arg 0) .AX :: storesFrom .AX 0 (t0 :: ts)))))

theorem fmBody_spec (h : P.Good) (hP : Consts P) {t0 : Loc} {ts li : List Loc} {last : Loc} {bs : List Loc}
    (hR : FmRegs P t0 ts li last) (hb : bs.length = P.n) (hbn : (t0 :: ts ++ bs).Nodup) {s : St} (hs : s.Ok)
    (hl : (s.mem (s.arg 0)).length = P.n) :
    (execs P s (fmBody P.n t0 ts last bs)).mem =
      Function.update s.mem (s.arg 0) (P.fromMont (s.mem (s.arg 0))) := by
  have hn := hR.nodup
  simp only [List.nodup_cons, List.mem_cons, not_or] at hn
  have ht : (t0 :: ts).length = P.n := hR.len
  have hdx : Loc.DX ∉ t0 :: ts := by simp only [List.mem_cons, not_or]; tauto
  have hax : Loc.AX ∉ t0 :: ts := by simp only [List.mem_cons, not_or]; tauto
  have hnd : (t0 :: ts).Nodup := by simp only [List.nodup_cons]; tauto
  rw [fmBody, execs_cons, execs_append, execs_append, execs_append, execs_cons]
  obtain ⟨v1, -, -⟩ := mov_spec (P := P) s (.arg 0) .DX
  have f1 := exec_fr (P := P) s (.mov (.arg 0) .DX) rfl
  have ok1 := exec_ok hs hP (.mov (.arg 0) .DX) rfl
  generalize exec P s (.mov (.arg 0) .DX) = s1 at *
  have v1' : s1.loc .DX = s.arg 0 := v1
  have f2 := movs_fr (P := P) (memOpds P.n .DX) (t0 :: ts) s1
  have e2 := movs_spec (P := P) (memOpds P.n .DX) (t0 :: ts) s1 (by rw [memOpds_length, ht])
    (Later.of_avoids hnd fun o ho => memOpds_avoids hdx ho)
  rw [memOpds_val s1 .DX (by rw [v1', f1.mem, hl]), v1', f1.mem] at e2
  have ok2 := movs_ok hP (memOpds P.n .DX) (t0 :: ts) ok1
  generalize execs P s1 (movs (memOpds P.n .DX) (t0 :: ts)) = s2 at *
  obtain ⟨M, hM, e3⟩ := fmSteps_spec h hP hR P.n ok2
  have f3 := fmSteps_fr hR P.n s2
  have ok3 := fmSteps_ok (t0 := t0) (ts := ts) (last := last) hP P.n ok2
  rw [e2] at e3
  generalize execs P s2 (fmSteps P.n t0 ts last P.n) = s3 at *
  have e4 := reduceCode_spec h ok3 ht hb hbn
  have f4 := reduceCode_fr (P := P) (qOpds P.n) (t0 :: ts) bs s3
  generalize execs P s3 (reduceCode (qOpds P.n) (t0 :: ts) bs) = s4 at *
  obtain ⟨v5, -, -⟩ := mov_spec (P := P) s4 (.arg 0) .AX
  have f5 := exec_fr (P := P) s4 (.mov (.arg 0) .AX) rfl
  generalize exec P s4 (.mov (.arg 0) .AX) = s5 at *
  have m5 : s5.mem = s.mem := by rw [f5.mem, f4.mem, f3.mem, f2.mem, f1.mem]
  have a5 : s5.loc .AX = s.arg 0 := by
    rw [v5]
    change s4.arg 0 = _
    rw [f4.arg, f3.arg, f2.arg, f1.arg]
  have e5 : (t0 :: ts).map s5.loc = (t0 :: ts).map s4.loc := f5.locs fun r hr => by
    simp only [Instr.dst, List.mem_singleton]; rintro rfl; exact hax hr
  rw [stores_spec .AX (t0 :: ts) s5 (by rw [a5, m5, hl, ht])]
  simp only [m5, a5]
  congr 1
  rw [e5, e4]
  -- the same number as the portable code
  obtain ⟨⟨T, M', eg, eg'⟩, lg, wg⟩ := FieldPkg.fromMont_num h hl (hs.mem _)
  have w3 := ok3.words (t0 :: ts)
  have hz := wv_lt (hs.mem (s.arg 0))
  rw [hl] at hz
  have hlt := fm_num h hz hM e3
  obtain ⟨r1, r2, r3⟩ := FieldPkg.reduce_spec h (z := (t0 :: ts).map s3.loc) (by rw [List.length_map, ht]) w3 hlt
  refine wv_inj r3 wg (r2.trans lg.symm) ?_
  rw [r1, eg']
  have hco : Nat.Coprime P.p ((2 ^ 64) ^ P.n) := by
    apply Nat.Coprime.pow_right
    apply Nat.Coprime.pow_right
    exact (Nat.coprime_primes h.prime Nat.prime_two).2 (FieldPkg.Good.odd h)
  have : (2 ^ 64) ^ P.n * wv ((t0 :: ts).map s3.loc) ≡ (2 ^ 64) ^ P.n * T [MOD P.p] := by
    rw [e3, eg]
    simp [Nat.ModEq]
  exact Nat.ModEq.cancel_left_of_coprime hco this

/-! ### Jumps -/

theorem jumpTo_here (L : Nat) : ∀ (A B : List Instr), (∀ i ∈ A, ∀ l, i ≠ .label l) →
    jumpTo L (A ++ .label L :: B) = B
  | [], B, _ => by simp [jumpTo]
  | i :: A, B, h => by
    have ih := jumpTo_here L A B fun i hi => h i (by simp [hi])
    have hi := h i (by simp)
    rw [List.cons_append]
    cases i <;> simp_all [jumpTo]

/-- A function that looks for ADX first. -/
theorem run_adx (L : Nat) (body alt : List Instr) (s : St) (hb : body.all Instr.straight = true)
    (hl : ∀ i ∈ body, ∀ l, i ≠ .label l) :
    run P (.cmpAdx :: .jne L :: (body ++ .ret :: .label L :: alt)) s =
      if s.adx then execs P (exec P s .cmpAdx) body else run P alt (exec P s .cmpAdx) := by
  rw [run_cons _ _ _ rfl, run]
  have hz : (exec P s .cmpAdx).zf = s.adx := rfl
  rw [hz]
  cases s.adx with
  | true => simp only [if_true]; rw [run_append _ _ _ hb, run_ret]
  | false =>
    simp only [Bool.false_eq_true, if_false]
    have : body ++ Instr.ret :: Instr.label L :: alt = (body ++ [Instr.ret]) ++ Instr.label L :: alt := by simp
    rw [this, jumpTo_here L (body ++ [Instr.ret]) alt (by
      intro i hi l
      rcases List.mem_append.1 hi with hi | hi
      · exact hl i hi l
      · simp only [List.mem_singleton] at hi; subst hi; simp)]

theorem cmpAdx_ok {s : St} (hs : s.Ok) : (exec P s .cmpAdx).Ok :=
  ⟨hs.loc, by simp only [exec]; split <;> omega, by simp [exec], hs.mem, hs.arg⟩

theorem fromMont_call (h : P.Good) (hP : Consts P) {t0 : Loc} {ts li : List Loc} {last : Loc} {bs : List Loc}
    (hR : FmRegs P t0 ts li last) (hb : bs.length = P.n) (hbn : (t0 :: ts ++ bs).Nodup) {L : Nat}
    {code : List Instr} (hc : code = .cmpAdx :: .jne L :: (fmBody P.n t0 ts last bs ++ .ret :: .label L ::
      [.mov (.arg 0) .AX, .mov (.l .AX) (.out 0), .callFromMont, .ret]))
    (hst : (fmBody P.n t0 ts last bs).all Instr.straight = true)
    (hlb : (fmBody P.n t0 ts last bs).all (fun i => match i with | .label _ => false | _ => true) = true)
    {s : St} (hs : s.Ok) {x : Nat} (hx : x < 2 ^ 64) (hl : (s.mem x).length = P.n) :
    call P code [x] s = Function.update s.mem x (P.fromMont (s.mem x)) := by
  have hs' := start_ok hs [x] (Words.cons hx Words.nil)
  rw [call, hc, run_adx L _ _ _ hst (by
    intro i hi l hh
    have := List.all_eq_true.1 hlb i hi
    rw [hh] at this; simp at this)]
  by_cases ha : s.adx = true
  · rw [if_pos ha]
    exact fmBody_spec h hP hR hb hbn (cmpAdx_ok hs') hl
  · rw [if_neg ha, run_cons _ _ _ rfl, run_cons _ _ _ rfl]
    rw [run, run_ret]
    · simp [exec, St.set, St.rd]
    all_goals simp

/-! ### mul -/

theorem good_cios (h : P.Good) : FieldPkg.Good { P with cios := true } :=
  ⟨h.two_le, h.q_words, h.prime, h.inv, h.rSquare_len, h.rSquare_words, h.rSquare_val, h.one_len, h.one_words,
    h.one_val, fun hh => by simp at hh, h.spare_add⟩

theorem mont_of_num (h : P.Good) {x y z : List Nat} {a b : ZMod P.p} (hx : MontForm P.p P.n x a)
    (hy : MontForm P.p P.n y b) {T M : Nat} (e : (2 ^ 64) ^ P.n * T = wv y * wv x + M * P.p)
    (ez : wv z = T % P.p) (lz : z.length = P.n) (wz : Words z) : MontForm P.p P.n z (a * b) := by
  have := Fact.mk h.prime
  have h1 : (wv x : ZMod P.p) = a * P.R := hx.val
  have h2 : (wv y : ZMod P.p) = b * P.R := hy.val
  refine ⟨lz, wz, ez.trans_lt (Nat.mod_lt _ h.pos), ?_⟩
  rw [show Nat.ofDigits (2 ^ 64) z = _ from ez, FieldPkg.cast_mod]
  have e2 := congrArg (Nat.cast : Nat → ZMod P.p) e
  rw [Nat.cast_mul, FieldPkg.cast_R, Nat.cast_add, Nat.cast_mul, Nat.cast_mul, h1, h2, ZMod.natCast_self,
    mul_zero, add_zero] at e2
  refine mul_left_cancel₀ (FieldPkg.R_ne h) (e2.trans ?_)
  change _ = P.R * (a * b * P.R)
  ring

/-- The straight part of `mul`. -/
def mulBody (pre : List Instr) (R : MulRegs) (n : Nat) (yb : Loc) (bs : List Loc) : List Instr :=
  pre ++ (round0 R n (.mem 0 yb) ++ (rounds R n ((List.range (n - 1)).map fun i => Opd.mem (i + 1) yb) ++
    (reduceCode (qOpds n) R.t bs ++ (.mov (.arg 0) .AX :: storesFrom .AX 0 R.t))))

/-- What the first lines of `mul` do: the first factor is where `R` says, the pointer to the second in `yb`. -/
structure Prelude (P : FieldPkg) (R : MulRegs) (yb : Loc) (s s' : St) : Prop where
  ok : s'.Ok
  mem : s'.mem = s.mem
  arg : s'.arg = s.arg
  xs : R.xs.map (s'.rd P) = s.mem (s.arg 1)
  y : s'.loc yb = s.arg 2

theorem mulBody_spec (h : P.Good) (hP : Consts P) (h2 : 2 * P.p ≤ (2 ^ 64) ^ P.n) {R : MulRegs} (hR : R.Fits P)
    {yb : Loc} (hyb : yb ∉ R.W) {bs : List Loc} (hb : bs.length = P.n) (hbn : (R.t ++ bs).Nodup)
    {pre : List Instr} {s : St} (hpre : Prelude P R yb s (execs P s pre))
    (hl : (s.mem (s.arg 0)).length = P.n) {a b : ZMod P.p} (hx : MontForm P.p P.n (s.mem (s.arg 1)) a)
    (hy : MontForm P.p P.n (s.mem (s.arg 2)) b) :
    ∃ w, MontForm P.p P.n w (a * b) ∧
      (execs P s (mulBody pre R P.n yb bs)).mem = Function.update s.mem (s.arg 0) w := by
  have hW := hR.nodup
  simp only [MulRegs.W, List.nodup_cons, List.mem_cons, not_or] at hW
  rw [mulBody, execs_append, execs_append, execs_append, execs_append, execs_cons]
  generalize execs P s pre = s1 at *
  have hxp : wv (s.mem (s.arg 1)) < P.p := hx.lt
  -- the second factor
  have hy1 : (memOpds P.n yb).map (s1.rd P) = s.mem (s.arg 2) := by
    rw [memOpds_val s1 yb (by rw [hpre.y, hpre.mem, hy.len]), hpre.y, hpre.mem]
  have hsplit : memOpds P.n yb = .mem 0 yb :: (List.range (P.n - 1)).map fun i => Opd.mem (i + 1) yb := by
    have := h.two_le
    obtain ⟨n', hn'⟩ : ∃ n', P.n = n' + 1 := ⟨P.n - 1, by omega⟩
    rw [memOpds, hn', List.range_succ_eq_map]
    simp [Function.comp_def]
  have hya : ∀ o ∈ (List.range (P.n - 1)).map (fun i => Opd.mem (i + 1) yb), o.avoids R.W = true := by
    intro o ho
    obtain ⟨i, _, rfl⟩ := List.mem_map.1 ho
    simpa [Opd.avoids] using hyb
  have hyl : ((List.range (P.n - 1)).map fun i => Opd.mem (i + 1) yb).length = P.n - 1 := by simp
  rw [hsplit, List.map_cons] at hy1
  generalize (List.range (P.n - 1)).map (fun i => Opd.mem (i + 1) yb) = ys at *
  -- the rounds
  obtain ⟨m, e2, b2⟩ := round0_spec h hP h2 hR hpre.ok (.mem 0 yb) (by rw [hpre.xs]; exact hxp)
  have f2 := round0_fr (P := P) R hR.last P.n (.mem 0 yb) s1
  have ok2 := round0_ok hP R P.n (.mem 0 yb) hpre.ok
  generalize execs P s1 (round0 R P.n (.mem 0 yb)) = s2 at *
  have x2 : R.xs.map (s2.rd P) = s.mem (s.arg 1) := (f2.rds hR.xs).trans hpre.xs
  have y2 : ys.map (s2.rd P) = ys.map (s1.rd P) := f2.rds hya
  obtain ⟨M, e3, b3⟩ := rounds_spec h hP h2 hR ys ok2 hya b2 (by rw [x2]; exact hxp)
  have f3 := rounds_fr (P := P) R hR.last P.n ys s2
  have ok3 := rounds_ok hP R P.n ys ok2
  rw [x2, y2] at e3
  rw [hpre.xs] at e2
  generalize execs P s2 (rounds R P.n ys) = s3 at *
  have e4 := reduceCode_spec h ok3 hR.len hb hbn
  have f4 := reduceCode_fr (P := P) (qOpds P.n) R.t bs s3
  generalize execs P s3 (reduceCode (qOpds P.n) R.t bs) = s4 at *
  obtain ⟨v5, -, -⟩ := mov_spec (P := P) s4 (.arg 0) .AX
  have f5 := exec_fr (P := P) s4 (.mov (.arg 0) .AX) rfl
  generalize exec P s4 (.mov (.arg 0) .AX) = s5 at *
  have m5 : s5.mem = s.mem := by rw [f5.mem, f4.mem, f3.mem, f2.mem, hpre.mem]
  have a5 : s5.loc .AX = s.arg 0 := by
    rw [v5]
    change s4.arg 0 = _
    rw [f4.arg, f3.arg, f2.arg, hpre.arg]
  have e5 : R.t.map s5.loc = R.t.map s4.loc := f5.locs fun r hr => by
    simp only [Instr.dst, List.mem_singleton]; rintro rfl; tauto
  obtain ⟨r1, r2, r3⟩ := FieldPkg.reduce_spec h (z := R.t.map s3.loc) (by rw [List.length_map, hR.len])
    (ok3.words R.t) b3
  refine ⟨P.reduce (R.t.map s3.loc), mont_of_num h hx hy (T := wv (R.t.map s3.loc)) (M := m + 2 ^ 64 * M) ?_ r1 r2 r3, ?_⟩
  · rw [← hy1, wv_cons]
    obtain ⟨n', hn'⟩ : ∃ n', P.n = n' + 1 := ⟨P.n - 1, by have := h.two_le; omega⟩
    rw [hyl, hn', Nat.add_sub_cancel] at e3
    rw [hn', pow_succ (2 ^ 64)]
    generalize (2 : Nat) ^ 64 = B at *
    linear_combination e2 + B * e3
  · rw [stores_spec .AX R.t s5 (by rw [a5, m5, hl, hR.len])]
    simp only [m5, a5]
    rw [e5, e4]

theorem mul_call (h : P.Good) (hP : Consts P) (h2 : 2 * P.p ≤ (2 ^ 64) ^ P.n) {R : MulRegs} (hR : R.Fits P)
    {yb : Loc} (hyb : yb ∉ R.W) {bs : List Loc} (hb : bs.length = P.n) (hbn : (R.t ++ bs).Nodup)
    {pre : List Instr}
    (hpre : ∀ s : St, s.Ok → (s.mem (s.arg 1)).length = P.n → Prelude P R yb s (execs P s pre)) {L : Nat}
    {code : List Instr} (hc : code = .cmpAdx :: .jne L :: (mulBody pre R P.n yb bs ++ .ret :: .label L ::
      [.mov (.arg 0) .AX, .mov (.l .AX) (.out 0), .mov (.arg 1) .AX, .mov (.l .AX) (.out 1),
        .mov (.arg 2) .AX, .mov (.l .AX) (.out 2), .callMul, .ret]))
    (hst : (mulBody pre R P.n yb bs).all Instr.straight = true)
    (hlb : (mulBody pre R P.n yb bs).all (fun i => match i with | .label _ => false | _ => true) = true)
    {s : St} (hs : s.Ok) {z x y : Nat} (hz : z < 2 ^ 64) (hx : x < 2 ^ 64) (hy : y < 2 ^ 64)
    (hl : (s.mem z).length = P.n) {a b : ZMod P.p} (hxa : MontForm P.p P.n (s.mem x) a)
    (hyb' : MontForm P.p P.n (s.mem y) b) :
    ∃ w, MontForm P.p P.n w (a * b) ∧ call P code [z, x, y] s = Function.update s.mem z w := by
  have hs' := start_ok hs [z, x, y] (Words.cons hz (Words.cons hx (Words.cons hy Words.nil)))
  rw [call, hc, run_adx L _ _ _ hst (by
    intro i hi l hh
    have := List.all_eq_true.1 hlb i hi
    rw [hh] at this; simp at this)]
  by_cases ha : s.adx = true
  · rw [if_pos ha]
    exact mulBody_spec h hP h2 hR hyb hb hbn (hpre _ (cmpAdx_ok hs') hxa.len) hl hxa hyb'
  · rw [if_neg ha, run_cons _ _ _ rfl, run_cons _ _ _ rfl, run_cons _ _ _ rfl, run_cons _ _ _ rfl,
      run_cons _ _ _ rfl, run_cons _ _ _ rfl]
    rw [run, run_ret]
    · refine ⟨FieldPkg.mul { P with cios := true } (s.mem x) (s.mem y),
        FieldPkg.mont_mul' (good_cios h) hxa hyb', ?_⟩
      rw [← FieldPkg.mulAt_eq (good_cios h) s.mem z x y hl hxa.len hxa.words hyb'.len hyb'.words hyb'.lt]
      simp [exec, St.set, St.rd]
    all_goals simp

end Ringo.Amd64
