import Verif.Spec.Asm
import Verif.Proof.FieldMont

/-!
# The amd64 assembly: rows of instructions

A straight piece of code, and what the rows of instructions the generator emits for `n` words do: additions
and subtractions with a carry, the macros `MACC`, `DIV_SHIFT`, `MUL_WORD_0`, `MUL_WORD_N` and `REDUCE`.
-/

namespace Ringo.Amd64

variable {P : FieldPkg}

/-- The instructions one after the other. -/
def execs (P : FieldPkg) (s : St) (is : List Instr) : St := is.foldl (exec P) s

theorem execs_nil (s : St) : execs P s [] = s := rfl

theorem execs_cons (s : St) (i : Instr) (is : List Instr) :
    execs P s (i :: is) = execs P (exec P s i) is := rfl

theorem execs_append (s : St) (a b : List Instr) : execs P s (a ++ b) = execs P (execs P s a) b :=
  List.foldl_append ..

/-- Neither a jump nor a return nor a call. -/
def Instr.straight : Instr → Bool
  | .jne _ | .jcc _ | .ret | .callMul | .callFromMont => false
  | _ => true

theorem run_cons (i : Instr) (is : List Instr) (s : St) (h : i.straight = true) :
    run P (i :: is) s = run P is (exec P s i) := by
  cases i <;> first | (rw [run] <;> (intros; simp_all)) | simp [Instr.straight] at h

theorem run_append : ∀ (a b : List Instr) (s : St), a.all Instr.straight = true →
    run P (a ++ b) s = run P b (execs P s a)
  | [], _, _, _ => rfl
  | i :: a, b, s, h => by
    simp only [List.all_cons, Bool.and_eq_true] at h
    rw [List.cons_append, run_cons _ _ _ h.1, run_append a b _ h.2, execs_cons]

theorem run_ret (is : List Instr) (s : St) : run P (.ret :: is) s = s := by rw [run]

/-! ### Frames -/

/-- At most the locations `W` and the flags differ. -/
structure Fr (W : List Loc) (s s' : St) : Prop where
  loc : ∀ r, r ∉ W → s'.loc r = s.loc r
  mem : s'.mem = s.mem
  arg : s'.arg = s.arg
  adx : s'.adx = s.adx

theorem Fr.refl (W : List Loc) (s : St) : Fr W s s := ⟨fun _ _ => rfl, rfl, rfl, rfl⟩

theorem Fr.trans {W : List Loc} {s s' s'' : St} (h : Fr W s s') (h' : Fr W s' s'') : Fr W s s'' :=
  ⟨fun r hr => (h'.loc r hr).trans (h.loc r hr), h'.mem.trans h.mem, h'.arg.trans h.arg,
    h'.adx.trans h.adx⟩

theorem Fr.mono {W W' : List Loc} {s s' : St} (h : Fr W s s') (hw : W ⊆ W') : Fr W' s s' :=
  ⟨fun r hr => h.loc r fun hh => hr (hw hh), h.mem, h.arg, h.adx⟩

/-- The value of the operand does not depend on the locations. -/
def Opd.avoids (W : List Loc) : Opd → Bool
  | .l r => decide (r ∉ W)
  | .mem _ b => decide (b ∉ W)
  | _ => true

theorem Opd.avoids_mono {W W' : List Loc} (hw : W ⊆ W') {o : Opd} (h : o.avoids W' = true) :
    o.avoids W = true := by
  cases o <;> simp_all [Opd.avoids] <;> exact fun hh => h (hw hh)

theorem Fr.rd {W : List Loc} {s s' : St} (h : Fr W s s') {o : Opd} (ho : o.avoids W = true) :
    s'.rd P o = s.rd P o := by
  cases o <;> simp_all [Opd.avoids, St.rd, h.arg, h.mem, h.loc]

theorem Fr.rds {W : List Loc} {s s' : St} (h : Fr W s s') {os : List Opd}
    (ho : ∀ o ∈ os, o.avoids W = true) : os.map (s'.rd P) = os.map (s.rd P) :=
  List.map_congr_left fun o hm => h.rd (ho o hm)

theorem Fr.locs {W : List Loc} {s s' : St} (h : Fr W s s') {rs : List Loc}
    (hr : ∀ r ∈ rs, r ∉ W) : rs.map s'.loc = rs.map s.loc :=
  List.map_congr_left fun r hm => h.loc r (hr r hm)

/-! ### Words -/

/-- The constants of the package are words. -/
structure Consts (P : FieldPkg) : Prop where
  q : Words P.q
  qInv : P.qInvNeg < 2 ^ 64

theorem getD_word {l : List Nat} (h : Words l) (i : Nat) : l.getD i 0 < 2 ^ 64 := by
  rw [List.getD_eq_getElem?_getD]
  cases hi : l[i]? with
  | none => norm_num
  | some w => exact h w (List.mem_of_getElem? hi)

theorem St.Ok.rd {s : St} (h : s.Ok) (hP : Consts P) (o : Opd) : s.rd P o < 2 ^ 64 := by
  cases o with
  | l r => exact h.loc r
  | imm v => exact Nat.mod_lt _ (by norm_num)
  | qInv => exact hP.qInv
  | cq i => exact getD_word hP.q i
  | q i => exact getD_word hP.q i
  | mem i b => exact getD_word (h.mem _) i
  | arg i => exact h.arg i

theorem St.Ok.words {s : St} (h : s.Ok) (rs : List Loc) : Words (rs.map s.loc) := by
  intro w hw
  obtain ⟨r, _, rfl⟩ := List.mem_map.1 hw
  exact h.loc r

theorem St.Ok.wordsOf {s : St} (h : s.Ok) (hP : Consts P) (os : List Opd) : Words (os.map (s.rd P)) := by
  intro w hw
  obtain ⟨o, _, rfl⟩ := List.mem_map.1 hw
  exact h.rd hP o

theorem update_word {f : Loc → Nat} (h : ∀ r, f r < 2 ^ 64) (d : Loc) {v : Nat} (hv : v < 2 ^ 64) (r : Loc) :
    Function.update f d v r < 2 ^ 64 := by
  rw [Function.update_apply]; split
  · exact hv
  · exact h r

theorem exec_ok {s : St} (h : s.Ok) (hP : Consts P) (i : Instr) (hi : i.straight = true) :
    (exec P s i).Ok := by
  have hadd : ∀ o d c, c ≤ 1 → (s.addc P o d c).Ok := fun o d c hc =>
    ⟨update_word h.loc d (add64_lt _ _ _), add64_carry (h.loc d) (h.rd hP o) hc,
      by simp only [St.addc, ovfAdd]; split <;> omega, h.mem, h.arg⟩
  have hsub : ∀ o d c, c ≤ 1 → (s.subc P o d c).Ok := fun o d c hc =>
    have := sub64_spec (h.loc d) (h.rd hP o) hc
    ⟨update_word h.loc d this.2.1, this.2.2, by simp only [St.subc, ovfSub]; split <;> omega, h.mem, h.arg⟩
  cases i with
  | mov src d => exact ⟨update_word h.loc d (h.rd hP src), h.cf, h.of, h.mem, h.arg⟩
  | store src i b =>
    refine ⟨h.loc, h.cf, h.of, fun a => ?_, h.arg⟩
    simp only [exec, Mem.write, Function.update_apply]
    split
    · intro w hw
      rcases List.mem_or_eq_of_mem_set hw with hw | rfl
      · exact h.mem _ w hw
      · exact h.loc src
    · exact h.mem a
  | add src d => exact hadd src d 0 (by omega)
  | adc src d => exact hadd src d _ h.cf
  | sub src d => exact hsub src d 0 (by omega)
  | sbb src d => exact hsub src d _ h.cf
  | adcx src d =>
    exact ⟨update_word h.loc d (add64_lt _ _ _), add64_carry (h.loc d) (h.rd hP src) h.cf, h.of, h.mem, h.arg⟩
  | adox src d =>
    exact ⟨update_word h.loc d (add64_lt _ _ _), h.cf, add64_carry (h.loc d) (h.rd hP src) h.of, h.mem, h.arg⟩
  | mulx src lo hi' =>
    have := mul64_lt (h.loc .DX) (h.rd hP src)
    exact ⟨update_word (update_word h.loc lo this.2) hi' this.1, h.cf, h.of, h.mem, h.arg⟩
  | imul src d =>
    refine ⟨update_word h.loc d (Nat.mod_lt _ (by norm_num)), ?_, ?_, h.mem, h.arg⟩ <;>
    · simp only [exec, ovfMul]; split <;> omega
  | xor src d =>
    exact ⟨update_word h.loc d (Nat.xor_lt_two_pow (h.loc d) (h.rd hP src)), by simp [exec], by simp [exec],
      h.mem, h.arg⟩
  | cmovcs src d =>
    simp only [exec]; split
    · exact ⟨update_word h.loc d (h.rd hP src), h.cf, h.of, h.mem, h.arg⟩
    · exact h
  | cmovcc src d =>
    simp only [exec]; split
    · exact h
    · exact ⟨update_word h.loc d (h.rd hP src), h.cf, h.of, h.mem, h.arg⟩
  | cmpAdx => exact ⟨h.loc, by simp only [exec]; split <;> omega, by simp [exec], h.mem, h.arg⟩
  | label l => exact h
  | jne l => simp [Instr.straight] at hi
  | jcc l => simp [Instr.straight] at hi
  | ret => simp [Instr.straight] at hi
  | callMul => simp [Instr.straight] at hi
  | callFromMont => simp [Instr.straight] at hi

theorem execs_ok (hP : Consts P) : ∀ (is : List Instr) (s : St), s.Ok → is.all Instr.straight = true →
    (execs P s is).Ok
  | [], _, h, _ => h
  | i :: is, s, h, hi => by
    simp only [List.all_cons, Bool.and_eq_true] at hi
    exact execs_ok hP is _ (exec_ok h hP i hi.1) hi.2

/-! ### One instruction: what changes -/

theorem fr_set (s : St) (d : Loc) (v : Nat) : Fr [d] s (s.set d v) :=
  ⟨fun r hr => by simp only [List.mem_singleton] at hr; simp [St.set, hr], rfl, rfl, rfl⟩

/-- The location an instruction writes. -/
def Instr.dst : Instr → List Loc
  | .mov _ d | .add _ d | .adc _ d | .sub _ d | .sbb _ d | .adcx _ d | .adox _ d | .imul _ d | .xor _ d
  | .cmovcs _ d | .cmovcc _ d => [d]
  | .mulx _ lo hi => [lo, hi]
  | _ => []

/-- Writes to memory. -/
def Instr.stores : Instr → Bool
  | .store _ _ _ | .callMul | .callFromMont => true
  | _ => false

theorem exec_fr (s : St) (i : Instr) (hi : i.stores = false) : Fr i.dst s (exec P s i) := by
  have h1 : ∀ (d : Loc) (v : Nat) (r : Loc), r ∉ [d] → Function.update s.loc d v r = s.loc r := by
    intro d v r hr; simp only [List.mem_singleton] at hr; simp [hr]
  cases i with
  | mov src d => exact ⟨h1 d _, rfl, rfl, rfl⟩
  | store src i b => simp [Instr.stores] at hi
  | callMul => simp [Instr.stores] at hi
  | callFromMont => simp [Instr.stores] at hi
  | add src d => exact ⟨h1 d _, rfl, rfl, rfl⟩
  | adc src d => exact ⟨h1 d _, rfl, rfl, rfl⟩
  | sub src d => exact ⟨h1 d _, rfl, rfl, rfl⟩
  | sbb src d => exact ⟨h1 d _, rfl, rfl, rfl⟩
  | adcx src d => exact ⟨h1 d _, rfl, rfl, rfl⟩
  | adox src d => exact ⟨h1 d _, rfl, rfl, rfl⟩
  | imul src d => exact ⟨h1 d _, rfl, rfl, rfl⟩
  | xor src d => exact ⟨h1 d _, rfl, rfl, rfl⟩
  | mulx src lo hi' =>
    refine ⟨fun r hr => ?_, rfl, rfl, rfl⟩
    simp only [Instr.dst, List.mem_cons, List.not_mem_nil, or_false, not_or] at hr
    simp [exec, St.set, hr.1, hr.2]
  | cmovcs src d =>
    simp only [exec]; split
    · exact fr_set s d _
    · exact Fr.refl _ s
  | cmovcc src d =>
    simp only [exec]; split
    · exact Fr.refl _ s
    · exact fr_set s d _
  | cmpAdx => exact Fr.refl _ s |>.trans ⟨fun _ _ => rfl, rfl, rfl, rfl⟩
  | label l => exact Fr.refl _ s
  | jne l => exact Fr.refl _ s
  | jcc l => exact Fr.refl _ s
  | ret => exact Fr.refl _ s

theorem execs_fr (W : List Loc) : ∀ (is : List Instr) (s : St),
    (∀ i ∈ is, i.stores = false ∧ i.dst ⊆ W) → Fr W s (execs P s is)
  | [], s, _ => Fr.refl W s
  | i :: is, s, h => by
    have hi := h i (by simp)
    exact ((exec_fr s i hi.1).mono hi.2).trans (execs_fr W is _ fun j hj => h j (by simp [hj]))

theorem adcx_spec (s : St) (o : Opd) (d : Loc) :
    (exec P s (.adcx o d)).loc d + 2 ^ 64 * (exec P s (.adcx o d)).cf = s.loc d + s.rd P o + s.cf ∧
      (exec P s (.adcx o d)).of = s.of := by
  have := add64_spec (s.loc d) (s.rd P o) s.cf
  exact ⟨by simpa [exec, St.set] using this, rfl⟩

theorem adox_spec (s : St) (o : Opd) (d : Loc) :
    (exec P s (.adox o d)).loc d + 2 ^ 64 * (exec P s (.adox o d)).of = s.loc d + s.rd P o + s.of ∧
      (exec P s (.adox o d)).cf = s.cf := by
  have := add64_spec (s.loc d) (s.rd P o) s.of
  exact ⟨by simpa [exec, St.set] using this, rfl⟩

theorem mulx_spec (s : St) (o : Opd) {lo hi : Loc} (h : lo ≠ hi) :
    (exec P s (.mulx o lo hi)).loc lo + 2 ^ 64 * (exec P s (.mulx o lo hi)).loc hi =
      s.loc .DX * s.rd P o ∧ (exec P s (.mulx o lo hi)).cf = s.cf ∧
      (exec P s (.mulx o lo hi)).of = s.of := by
  have := mul64_spec (s.loc .DX) (s.rd P o)
  refine ⟨?_, rfl, rfl⟩
  simp only [exec, St.set, Function.update_self, Function.update_of_ne h]
  omega

theorem mov_spec (s : St) (o : Opd) (d : Loc) :
    (exec P s (.mov o d)).loc d = s.rd P o ∧ (exec P s (.mov o d)).cf = s.cf ∧
      (exec P s (.mov o d)).of = s.of := by
  simp [exec, St.set]

theorem xor_spec (s : St) (d : Loc) :
    (exec P s (.xor (.l d) d)).loc d = 0 ∧ (exec P s (.xor (.l d) d)).cf = 0 ∧
      (exec P s (.xor (.l d) d)).of = 0 := by
  simp [exec, St.set, St.rd]

/-! ### MACC -/

/-- The macro `MACC` (element_4w_amd64.s:233-236). -/
def macc (in0 in1 : Loc) (in2 : Opd) : List Instr :=
  [.adcx (.l in0) in1, .mulx in2 .AX in0, .adox (.l .AX) in1]

theorem macc_fr (r c : Loc) (q : Opd) (s : St) : Fr [.AX, c, r] s (execs P s (macc r c q)) := by
  apply execs_fr
  intro i hi
  simp only [macc, List.mem_cons, List.not_mem_nil, or_false] at hi
  rcases hi with rfl | rfl | rfl <;> exact ⟨rfl, by simp [Instr.dst]⟩

theorem macc_ok (hP : Consts P) {s : St} (h : s.Ok) (r c : Loc) (q : Opd) :
    (execs P s (macc r c q)).Ok := execs_ok hP _ _ h rfl

theorem macc_spec {s : St} {r c : Loc} {q : Opd} (hrc : r ≠ c) (ha : Loc.AX ≠ c)
    (har : Loc.AX ≠ r) (hd : Loc.DX ≠ c) (hq : q.avoids [c] = true) :
    (execs P s (macc r c q)).loc c + 2 ^ 64 * ((execs P s (macc r c q)).cf + (execs P s (macc r c q)).of +
      (execs P s (macc r c q)).loc r) = s.loc c + s.loc r + s.cf + s.of + s.loc .DX * s.rd P q := by
  simp only [macc, execs_cons, execs_nil]
  obtain ⟨e1, o1⟩ := adcx_spec (P := P) s (.l r) c
  have f1 := exec_fr (P := P) s (.adcx (.l r) c) rfl
  generalize exec P s (.adcx (.l r) c) = s1 at *
  obtain ⟨e2, c2, o2⟩ := mulx_spec (P := P) s1 q har
  have f2 := exec_fr (P := P) s1 (.mulx q .AX r) rfl
  generalize exec P s1 (.mulx q .AX r) = s2 at *
  obtain ⟨e3, o3⟩ := adox_spec (P := P) s2 (.l .AX) c
  have f3 := exec_fr (P := P) s2 (.adox (.l .AX) c) rfl
  generalize exec P s2 (.adox (.l .AX) c) = s3 at *
  rw [f1.rd hq, f1.loc .DX (by simpa [Instr.dst] using hd)] at e2
  have h1 : s2.loc c = s1.loc c := f2.loc c (by simp [Instr.dst, ha.symm, hrc.symm])
  have h2 : s3.loc r = s2.loc r := f3.loc r (by simp [Instr.dst, hrc])
  simp only [St.rd] at e1 e3
  rw [h1, o2, o1] at e3
  rw [h2, o3, c2]
  generalize s.loc .DX * s.rd P q = m at *
  omega

/-! ### The rows of DIV_SHIFT, MUL_WORD_N and MUL_WORD_0 -/

/-- The row of `MACC`s in `DIV_SHIFT` (element_4w_amd64.s:245-247): `cur` takes what comes from the next
register, and the next register the high half. -/
def divGo : Loc → List Loc → List Opd → List Instr
  | cur, r :: rs, q :: qs => macc r cur q ++ divGo r rs qs
  | _, _, _ => []

theorem divGo_fr : ∀ (rs : List Loc) (qs : List Opd) (cur : Loc) (s : St),
    Fr (.AX :: cur :: rs) s (execs P s (divGo cur rs qs))
  | [], _, _, s => Fr.refl _ s
  | _ :: _, [], _, s => Fr.refl _ s
  | r :: rs, q :: qs, cur, s => by
    rw [divGo, execs_append]
    exact ((macc_fr r cur q s).mono (by simp)).trans ((divGo_fr rs qs r _).mono (by simp))

theorem divGo_ok (hP : Consts P) : ∀ (rs : List Loc) (qs : List Opd) (cur : Loc) (s : St), s.Ok →
    (execs P s (divGo cur rs qs)).Ok
  | [], _, _, _, h => h
  | _ :: _, [], _, _, h => h
  | r :: rs, q :: qs, cur, s, h => by
    rw [divGo, execs_append]
    exact divGo_ok hP rs qs r _ (macc_ok hP h r cur q)

theorem divGo_spec : ∀ (rs : List Loc) (qs : List Opd) (cur : Loc) (s : St), rs.length = qs.length →
    (cur :: rs).Nodup → Loc.AX ∉ cur :: rs → Loc.DX ∉ cur :: rs →
    (∀ q ∈ qs, q.avoids (.AX :: cur :: rs) = true) →
    wv ((cur :: rs).map (execs P s (divGo cur rs qs)).loc) + (2 ^ 64) ^ rs.length *
      ((execs P s (divGo cur rs qs)).cf + (execs P s (divGo cur rs qs)).of) =
      s.loc cur + s.cf + s.of + wv (rs.map s.loc) + s.loc .DX * wv (qs.map (s.rd P))
  | [], [], cur, s, _, _, _, _, _ => by
    simp [divGo, execs_nil, wv]; omega
  | r :: rs, q :: qs, cur, s, hl, hn, ha, hd, hq => by
    rw [divGo, execs_append]
    simp only [List.nodup_cons, List.mem_cons, not_or] at hn ha hd
    have e1 := macc_spec (P := P) (s := s) (r := r) (c := cur) (q := q) (fun h => hn.1.1 h.symm) ha.1 ha.2.1
      hd.1 (Opd.avoids_mono (by simp) (hq q (by simp)))
    have f1 := macc_fr (P := P) r cur q s
    generalize execs P s (macc r cur q) = s1 at *
    have e2 := divGo_spec rs qs r s1 (by simpa using hl) (by simp [hn.2]) (by simp [ha.2]) (by simp [hd.2])
      (fun o ho => Opd.avoids_mono (by simp) (hq o (by simp [ho])))
    have f2 := divGo_fr (P := P) rs qs r s1
    generalize execs P s1 (divGo r rs qs) = s2 at *
    have h1 : s2.loc cur = s1.loc cur := f2.loc cur (by simp [ha.1, hn.1, Ne.symm])
    have h2 : rs.map s1.loc = rs.map s.loc := f1.locs fun x hx => by
      simp only [List.mem_cons, List.not_mem_nil, or_false, not_or]
      refine ⟨fun h => ?_, fun h => ?_, fun h => ?_⟩ <;> subst h
      · exact ha.2.2 hx
      · exact hn.1.2 hx
      · exact hn.2.1 hx
    have h3 : s1.loc .DX = s.loc .DX := f1.loc _ (by simp [hd.1, hd.2.1])
    have h4 : qs.map (s1.rd P) = qs.map (s.rd P) :=
      f1.rds fun o ho => Opd.avoids_mono (by simp) (hq o (by simp [ho]))
    rw [h2, h3, h4] at e2
    simp only [List.map_cons, wv_cons, List.length_cons] at e2 ⊢
    rw [h1, pow_succ (2 ^ 64)]
    generalize (2 : Nat) ^ 64 = B at *
    linear_combination e1 + B * e2
  | [], _ :: _, _, _, hl, _, _, _, _ => by simp at hl
  | _ :: _, [], _, _, hl, _, _, _, _ => by simp at hl

/-- The row of `MACC`s in `MUL_WORD_N` (element_4w_amd64.s:269-271). -/
def mulGo (bp : Loc) : List Loc → List Opd → List Instr
  | t :: ts, x :: xs => macc bp t x ++ mulGo bp ts xs
  | _, _ => []

theorem mulGo_fr (bp : Loc) : ∀ (ts : List Loc) (xs : List Opd) (s : St),
    Fr (.AX :: bp :: ts) s (execs P s (mulGo bp ts xs))
  | [], _, s => Fr.refl _ s
  | _ :: _, [], s => Fr.refl _ s
  | t :: ts, x :: xs, s => by
    rw [mulGo, execs_append]
    exact ((macc_fr bp t x s).mono (by simp)).trans ((mulGo_fr bp ts xs _).mono (by
      intro z hz; simp only [List.mem_cons] at hz ⊢; tauto))

theorem mulGo_ok (hP : Consts P) (bp : Loc) : ∀ (ts : List Loc) (xs : List Opd) (s : St), s.Ok →
    (execs P s (mulGo bp ts xs)).Ok
  | [], _, _, h => h
  | _ :: _, [], _, h => h
  | t :: ts, x :: xs, s, h => by
    rw [mulGo, execs_append]
    exact mulGo_ok hP bp ts xs _ (macc_ok hP h bp t x)

theorem mulGo_spec {bp : Loc} (hb : Loc.AX ≠ bp) (hbd : Loc.DX ≠ bp) :
    ∀ (ts : List Loc) (xs : List Opd) (s : St),
    ts.length = xs.length → (bp :: ts).Nodup → Loc.AX ∉ ts → Loc.DX ∉ ts →
    (∀ x ∈ xs, x.avoids (.AX :: bp :: ts) = true) →
    wv (ts.map (execs P s (mulGo bp ts xs)).loc) + (2 ^ 64) ^ ts.length *
      ((execs P s (mulGo bp ts xs)).loc bp + (execs P s (mulGo bp ts xs)).cf +
        (execs P s (mulGo bp ts xs)).of) =
      s.loc bp + s.cf + s.of + wv (ts.map s.loc) + s.loc .DX * wv (xs.map (s.rd P))
  | [], [], s, _, _, _, _, _ => by simp [mulGo, execs_nil, wv]
  | t :: ts, x :: xs, s, hl, hn, ha, hd, hq => by
    rw [mulGo, execs_append]
    simp only [List.nodup_cons, List.mem_cons, not_or] at hn ha hd
    have e1 := macc_spec (P := P) (s := s) (r := bp) (c := t) (q := x) hn.1.1 ha.1 hb hd.1
      (Opd.avoids_mono (by simp) (hq x (by simp)))
    have f1 := macc_fr (P := P) bp t x s
    generalize execs P s (macc bp t x) = s1 at *
    have e2 := mulGo_spec hb hbd ts xs s1 (by simpa using hl) (by simp [hn.1.2, hn.2]) ha.2 hd.2
      (fun o ho => Opd.avoids_mono (by intro z hz; simp only [List.mem_cons] at hz ⊢; tauto)
        (hq o (by simp [ho])))
    have f2 := mulGo_fr (P := P) bp ts xs s1
    generalize execs P s1 (mulGo bp ts xs) = s2 at *
    have h1 : s2.loc t = s1.loc t := f2.loc t (by
      simp only [List.mem_cons, not_or]; exact ⟨fun h => ha.1 h.symm, fun h => hn.1.1 h.symm, hn.2.1⟩)
    have h2 : ts.map s1.loc = ts.map s.loc := f1.locs fun z hz => by
      simp only [List.mem_cons, List.not_mem_nil, or_false, not_or]
      refine ⟨fun h => ?_, fun h => ?_, fun h => ?_⟩ <;> subst h
      · exact ha.2 hz
      · exact hn.2.1 hz
      · exact hn.1.2 hz
    have h3 : s1.loc .DX = s.loc .DX := f1.loc _ (by simp [hd.1, hbd])
    have h4 : xs.map (s1.rd P) = xs.map (s.rd P) :=
      f1.rds fun o ho => Opd.avoids_mono (by intro z hz; simp only [List.mem_cons, List.not_mem_nil, or_false] at hz ⊢; tauto) (hq o (by simp [ho]))
    rw [h2, h3, h4] at e2
    simp only [List.map_cons, wv_cons, List.length_cons] at e2 ⊢
    rw [h1, pow_succ (2 ^ 64)]
    generalize (2 : Nat) ^ 64 = B at *
    linear_combination e1 + B * e2
  | [], _ :: _, _, hl, _, _, _, _ => by simp at hl
  | _ :: _, [], _, hl, _, _, _, _ => by simp at hl

/-- The row of products in `MUL_WORD_0` (element_4w_amd64.s:255-260). -/
def mul0Go : Loc → List Loc → List Opd → List Instr
  | cur, r :: rs, x :: xs => [.mulx x .AX r, .adox (.l .AX) cur] ++ mul0Go r rs xs
  | _, _, _ => []

theorem mul0Go_fr : ∀ (rs : List Loc) (xs : List Opd) (cur : Loc) (s : St),
    Fr (.AX :: cur :: rs) s (execs P s (mul0Go cur rs xs))
  | [], _, _, s => Fr.refl _ s
  | _ :: _, [], _, s => Fr.refl _ s
  | r :: rs, q :: qs, cur, s => by
    rw [mul0Go, execs_append]
    refine Fr.trans (execs_fr _ _ s fun i hi => ?_) ((mul0Go_fr rs qs r _).mono (by simp))
    simp only [List.mem_cons, List.not_mem_nil, or_false] at hi
    rcases hi with rfl | rfl <;> exact ⟨rfl, by simp [Instr.dst]⟩

theorem mul0Go_ok (hP : Consts P) : ∀ (rs : List Loc) (xs : List Opd) (cur : Loc) (s : St), s.Ok →
    (execs P s (mul0Go cur rs xs)).Ok
  | [], _, _, _, h => h
  | _ :: _, [], _, _, h => h
  | r :: rs, q :: qs, cur, s, h => by
    rw [mul0Go, execs_append]
    exact mul0Go_ok hP rs qs r _ (execs_ok hP _ _ h rfl)

theorem mul0Go_spec : ∀ (rs : List Loc) (xs : List Opd) (cur : Loc) (s : St), rs.length = xs.length →
    (cur :: rs).Nodup → Loc.AX ∉ cur :: rs → Loc.DX ∉ cur :: rs →
    (∀ x ∈ xs, x.avoids (.AX :: cur :: rs) = true) →
    wv ((cur :: rs).map (execs P s (mul0Go cur rs xs)).loc) + (2 ^ 64) ^ rs.length *
      (execs P s (mul0Go cur rs xs)).of =
      s.loc cur + s.of + s.loc .DX * wv (xs.map (s.rd P))
  | [], [], cur, s, _, _, _, _, _ => by simp [mul0Go, execs_nil, wv]
  | r :: rs, x :: xs, cur, s, hl, hn, ha, hd, hq => by
    rw [mul0Go, execs_append, execs_cons, execs_cons, execs_nil]
    simp only [List.nodup_cons, List.mem_cons, not_or] at hn ha hd
    obtain ⟨e1, -, o1⟩ := mulx_spec (P := P) s x ha.2.1
    have f1 := exec_fr (P := P) s (.mulx x .AX r) rfl
    generalize exec P s (.mulx x .AX r) = s1 at *
    obtain ⟨e2, -⟩ := adox_spec (P := P) s1 (.l .AX) cur
    have f2 := exec_fr (P := P) s1 (.adox (.l .AX) cur) rfl
    generalize exec P s1 (.adox (.l .AX) cur) = s2 at *
    have e3 := mul0Go_spec rs xs r s2 (by simpa using hl) (by simp [hn.2]) (by simp [ha.2]) (by simp [hd.2])
      (fun o ho => Opd.avoids_mono (by simp) (hq o (by simp [ho])))
    have f3 := mul0Go_fr (P := P) rs xs r s2
    generalize execs P s2 (mul0Go r rs xs) = s3 at *
    have f12 : Fr [.AX, r, cur] s s2 := (f1.mono (by simp [Instr.dst])).trans (f2.mono (by simp [Instr.dst]))
    have h1 : s3.loc cur = s2.loc cur := f3.loc cur (by
      simp only [List.mem_cons, not_or]; exact ⟨fun h => ha.1 h.symm, hn.1.1, hn.1.2⟩)
    have h3 : s2.loc .DX = s.loc .DX := f12.loc _ (by simp [hd.1, hd.2.1])
    have h4 : xs.map (s2.rd P) = xs.map (s.rd P) :=
      f12.rds fun o ho => Opd.avoids_mono (by intro z hz; simp only [List.mem_cons, List.not_mem_nil, or_false] at hz ⊢; tauto) (hq o (by simp [ho]))
    have h5 : s1.loc cur = s.loc cur := f1.loc cur (by
      simp only [Instr.dst, List.mem_cons, List.not_mem_nil, or_false, not_or]
      exact ⟨fun h => ha.1 h.symm, hn.1.1⟩)
    have h6 : s2.loc r = s1.loc r := f2.loc r (by
      simp only [Instr.dst, List.mem_cons, List.not_mem_nil, or_false]; exact fun h => hn.1.1 h.symm)
    simp only [St.rd] at e2
    rw [h5, o1] at e2
    rw [h3, h4, h6] at e3
    simp only [List.map_cons, wv_cons, List.length_cons] at e3 ⊢
    rw [h1, pow_succ (2 ^ 64)]
    generalize (2 : Nat) ^ 64 = B at *
    linear_combination e2 + B * e3 + e1
  | [], _ :: _, _, _, hl, _, _, _, _ => by simp at hl
  | _ :: _, [], _, _, hl, _, _, _, _ => by simp at hl

end Ringo.Amd64
