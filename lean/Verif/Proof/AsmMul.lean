import Verif.Proof.Asm

/-!
# The amd64 assembly: the rounds of the multiplication
-/

namespace Ringo.Amd64

variable {P : FieldPkg}

/-- The operands `·qElement+0(SB)`, `·qElement+8(SB)`, ... -/
def qOpds (n : Nat) : List Opd := (List.range n).map Opd.q

theorem qOpds_val (s : St) : (qOpds P.n).map (s.rd P) = P.q := by
  rw [qOpds, List.map_map]
  apply List.ext_getElem
  · simp [FieldPkg.n]
  · intro i h1 h2
    simp [St.rd, h2]

theorem qOpds_avoids {n : Nat} {o : Opd} (h : o ∈ qOpds n) (W : List Loc) : o.avoids W = true := by
  obtain ⟨i, _, rfl⟩ := List.mem_map.1 h
  rfl

theorem imul_spec (s : St) (o : Opd) (d : Loc) :
    (exec P s (.imul o d)).loc d = s.loc d * s.rd P o % 2 ^ 64 := by simp [exec, St.set]

/-- The macro `DIV_SHIFT` (element_4w_amd64.s:238-250), and the same lines in `fromMont` (328-352), where `tmp`
is `BP`, and `a` is `AX`. -/
def divShift (t0 : Loc) (ts : List Loc) (tmp : Loc) (qs : List Opd) (a last : Loc) : List Instr :=
  [.mov .qInv .DX, .imul (.l t0) .DX, .xor (.l .AX) .AX, .mulx (qs.headD (.q 0)) .AX tmp,
    .adcx (.l t0) .AX, .mov (.l tmp) t0] ++ (divGo t0 ts qs.tail ++
  [.mov (.imm 0) .AX, .adcx (.l .AX) last, .adox (.l a) last])

theorem divShift_ok (hP : Consts P) {s : St} (h : s.Ok) (t0 : Loc) (ts : List Loc) (tmp : Loc) (qs : List Opd)
    (a last : Loc) : (execs P s (divShift t0 ts tmp qs a last)).Ok := by
  rw [divShift, execs_append, execs_append]
  exact execs_ok hP _ _ (divGo_ok hP _ _ _ _ (execs_ok hP _ _ h rfl)) rfl

theorem divShift_fr (s : St) {t0 : Loc} {ts : List Loc} {last : Loc} (tmp : Loc) (qs : List Opd) (a : Loc)
    (hl : last ∈ t0 :: ts) : Fr (.AX :: .DX :: tmp :: t0 :: ts) s (execs P s (divShift t0 ts tmp qs a last)) := by
  rw [divShift, execs_append, execs_append]
  refine (execs_fr _ _ s fun i hi => ?_).trans (((divGo_fr ts qs.tail t0 _).mono ?_).trans
    (execs_fr _ _ _ fun i hi => ?_))
  · simp only [List.mem_cons, List.not_mem_nil, or_false] at hi
    rcases hi with rfl | rfl | rfl | rfl | rfl | rfl <;> exact ⟨rfl, by simp [Instr.dst]⟩
  · intro z hz; simp only [List.mem_cons] at hz ⊢; tauto
  · simp only [List.mem_cons, List.not_mem_nil, or_false] at hi
    rcases hi with rfl | rfl | rfl
    · exact ⟨rfl, by simp [Instr.dst]⟩
    · exact ⟨rfl, by simp only [Instr.dst]; intro z hz; simp only [List.mem_cons, List.not_mem_nil, or_false] at hz hl ⊢; subst hz; tauto⟩
    · exact ⟨rfl, by simp only [Instr.dst]; intro z hz; simp only [List.mem_cons, List.not_mem_nil, or_false] at hz hl ⊢; subst hz; tauto⟩

theorem divShift_spec (h : P.Good) {s : St} {t0 : Loc} {ts li : List Loc} {tmp a last : Loc} {qs : List Opd}
    (hqs : qs = qOpds P.n) (hn : ts.length + 1 = P.n) (hlast : t0 :: ts = li ++ [last])
    (hnd : (t0 :: ts).Nodup) (hax : Loc.AX ∉ t0 :: ts) (hdx : Loc.DX ∉ t0 :: ts)
    (htmp : tmp ∉ Loc.AX :: Loc.DX :: t0 :: ts) (ha : a ∉ Loc.DX :: tmp :: t0 :: ts) :
    ∃ m < 2 ^ 64, ∃ c, 2 ^ 64 * (wv ((t0 :: ts).map (execs P s (divShift t0 ts tmp qs a last)).loc) +
      (2 ^ 64) ^ P.n * c) = wv ((t0 :: ts).map s.loc) +
        (2 ^ 64) ^ P.n * (if a = .AX then 0 else s.loc a) + m * P.p := by
  subst hqs
  obtain ⟨q0, qs', hq, hq0, wqs, lqs, ep⟩ := FieldPkg.q_split h
  obtain ⟨n', hn'⟩ : ∃ n', P.n = n' + 1 := ⟨ts.length, hn.symm⟩
  have hQ : qOpds P.n = .q 0 :: (qOpds P.n).tail := by
    rw [qOpds, hn', List.range_succ_eq_map]; rfl
  have hQv : ∀ s' : St, (qOpds P.n).tail.map (s'.rd P) = qs' := by
    intro s'
    have := qOpds_val (P := P) s'
    rw [hQ, hq] at this
    simpa using (List.cons.inj this).2
  have hQ0 : ∀ s' : St, s'.rd P (.q 0) = q0 := by
    intro s'; simp [St.rd, hq]
  have hQa : ∀ o ∈ (qOpds P.n).tail, ∀ W, o.avoids W = true := fun o ho W =>
    qOpds_avoids (List.mem_of_mem_tail ho) W
  have hQl : ts.length = (qOpds P.n).tail.length := by simp [qOpds]; omega
  have hhd : (qOpds P.n).headD (.q 0) = .q 0 := by rw [hQ]; rfl
  rw [divShift, hhd, execs_append, execs_append]
  simp only [List.mem_cons, not_or] at hax hdx htmp ha
  simp only [execs_cons, execs_nil]
  -- the first instructions
  obtain ⟨v1, -, -⟩ := mov_spec (P := P) s .qInv .DX
  have f1 := exec_fr (P := P) s (.mov .qInv .DX) rfl
  generalize exec P s (.mov .qInv .DX) = s1 at *
  have v2 := imul_spec (P := P) s1 (.l t0) .DX
  have f2 := exec_fr (P := P) s1 (.imul (.l t0) .DX) rfl
  generalize exec P s1 (.imul (.l t0) .DX) = s2 at *
  obtain ⟨-, c3, o3⟩ := xor_spec (P := P) s2 .AX
  have f3 := exec_fr (P := P) s2 (.xor (.l .AX) .AX) rfl
  generalize exec P s2 (.xor (.l .AX) .AX) = s3 at *
  obtain ⟨e4, c4, o4⟩ := mulx_spec (P := P) s3 (.q 0) (Ne.symm htmp.1)
  have f4 := exec_fr (P := P) s3 (.mulx (.q 0) .AX tmp) rfl
  generalize exec P s3 (.mulx (.q 0) .AX tmp) = s4 at *
  obtain ⟨e5, o5⟩ := adcx_spec (P := P) s4 (.l t0) .AX
  have f5 := exec_fr (P := P) s4 (.adcx (.l t0) .AX) rfl
  have w5 : (exec P s4 (.adcx (.l t0) .AX)).loc .AX < 2 ^ 64 := by
    simp only [exec, St.set, Function.update_self]; exact add64_lt _ _ _
  generalize exec P s4 (.adcx (.l t0) .AX) = s5 at *
  obtain ⟨v6, c6, o6⟩ := mov_spec (P := P) s5 (.l tmp) t0
  have f6 := exec_fr (P := P) s5 (.mov (.l tmp) t0) rfl
  generalize exec P s5 (.mov (.l tmp) t0) = s6 at *
  -- the row
  have e7 := divGo_spec (P := P) ts (qOpds P.n).tail t0 s6 hQl hnd (by simp [hax]) (by simp [hdx])
    (fun o ho => hQa o ho _)
  have f7 := divGo_fr (P := P) ts (qOpds P.n).tail t0 s6
  generalize execs P s6 (divGo t0 ts (qOpds P.n).tail) = s7 at *
  -- the end
  obtain ⟨v8, c8, o8⟩ := mov_spec (P := P) s7 (.imm 0) .AX
  have f8 := exec_fr (P := P) s7 (.mov (.imm 0) .AX) rfl
  generalize exec P s7 (.mov (.imm 0) .AX) = s8 at *
  obtain ⟨e9, o9⟩ := adcx_spec (P := P) s8 (.l .AX) last
  have f9 := exec_fr (P := P) s8 (.adcx (.l .AX) last) rfl
  generalize exec P s8 (.adcx (.l .AX) last) = s9 at *
  obtain ⟨e10, c10⟩ := adox_spec (P := P) s9 (.l a) last
  have f10 := exec_fr (P := P) s9 (.adox (.l a) last) rfl
  generalize exec P s9 (.adox (.l a) last) = s10 at *
  -- values along the way
  have hlm : last ∈ t0 :: ts := by rw [hlast]; simp
  have hlast' : Loc.AX ≠ last := fun hh => by rw [← hh] at hlm; simp [hax] at hlm
  have halast : a ≠ last := fun hh => by
    rw [← hh] at hlm; simp only [List.mem_cons] at hlm; tauto
  have F6 : Fr [.AX, .DX, tmp, t0] s s6 := by
    refine (f1.mono ?_).trans <| (f2.mono ?_).trans <| (f3.mono ?_).trans <| (f4.mono ?_).trans <|
      (f5.mono ?_).trans (f6.mono ?_) <;> simp [Instr.dst]
  have hts6 : ts.map s6.loc = ts.map s.loc := F6.locs fun z hz => by
    simp only [List.mem_cons, List.not_mem_nil, or_false, not_or]
    refine ⟨fun hh => ?_, fun hh => ?_, fun hh => ?_, fun hh => ?_⟩ <;> subst hh
    · exact hax.2 hz
    · exact hdx.2 hz
    · exact htmp.2.2.2 hz
    · exact (List.nodup_cons.1 hnd).1 hz
  have hdx3 : s3.loc .DX = s.loc t0 * P.qInvNeg % 2 ^ 64 := by
    rw [f3.loc .DX (by simp [Instr.dst]), v2, v1]
    simp only [St.rd]
    rw [f1.loc t0 (by simp [Instr.dst, Ne.symm hdx.1]), Nat.mul_comm]
  have hdx6 : s6.loc .DX = s3.loc .DX := by
    rw [f6.loc .DX (by simp [Instr.dst, hdx.1]), f5.loc .DX (by simp [Instr.dst]),
      f4.loc .DX (by simp [Instr.dst, Ne.symm htmp.2.1])]
  have ht04 : s4.loc t0 = s.loc t0 := by
    rw [f4.loc t0 (by simp [Instr.dst, Ne.symm hax.1, Ne.symm htmp.2.2.1]),
      f3.loc t0 (by simp [Instr.dst, Ne.symm hax.1]), f2.loc t0 (by simp [Instr.dst, Ne.symm hdx.1]),
      f1.loc t0 (by simp [Instr.dst, Ne.symm hdx.1])]
  have htmp5 : s5.loc tmp = s4.loc tmp := f5.loc tmp (by simp [Instr.dst, htmp.1])
  have hlow := FieldPkg.low_zero h ep (s.loc t0)
  have hmlt : s.loc t0 * P.qInvNeg % 2 ^ 64 < 2 ^ 64 := Nat.mod_lt _ (by norm_num)
  refine ⟨s.loc t0 * P.qInvNeg % 2 ^ 64, hmlt, s10.cf + s10.of, ?_⟩
  rw [hQ0, hdx3] at e4
  rw [hts6, hQv, hdx6, hdx3] at e7
  generalize s.loc t0 * P.qInvNeg % 2 ^ 64 = m at *
  simp only [St.rd, Nat.zero_mod] at e5 e9 e10 v6 v8
  rw [ht04, c4, c3] at e5
  have z5 : s5.loc .AX = 0 := by
    generalize m * q0 = mq at *
    omega
  have e6 : 2 ^ 64 * (s6.loc t0 + s6.cf) = s.loc t0 + m * q0 := by
    rw [v6, htmp5, c6]
    generalize m * q0 = mq at *
    omega
  have z6 : s6.of = 0 := by rw [o6, o5, o4, o3]
  rw [z6] at e7
  -- the last register
  have hli : li.map s10.loc = li.map s7.loc := by
    have hnl : last ∉ li := fun hh => by
      have := hnd; rw [hlast] at this
      have h2 := (List.nodup_append.1 this).2.2
      exact h2 _ hh _ (by simp) rfl
    have hal : Loc.AX ∉ li := fun hh => by
      have : Loc.AX ∈ t0 :: ts := by rw [hlast]; simp [hh]
      simp [hax] at this
    have F10 : Fr [.AX, last] s7 s10 := by
      refine (f8.mono ?_).trans <| (f9.mono ?_).trans (f10.mono ?_) <;> simp [Instr.dst]
    exact F10.locs fun z hz => by
      simp only [List.mem_cons, List.not_mem_nil, or_false, not_or]
      exact ⟨fun hh => hal (hh ▸ hz), fun hh => hnl (hh ▸ hz)⟩
  have hlen : li.length + 1 = P.n := by
    have := congrArg List.length hlast
    simp at this; omega
  have hv10 : wv ((t0 :: ts).map s10.loc) = wv (li.map s7.loc) + (2 ^ 64) ^ li.length * s10.loc last := by
    rw [hlast, List.map_append, List.map_singleton, wv_concat, hli, List.length_map]
  have hv7 : wv ((t0 :: ts).map s7.loc) = wv (li.map s7.loc) + (2 ^ 64) ^ li.length * s7.loc last := by
    rw [hlast, List.map_append, List.map_singleton, wv_concat, List.length_map]
  have hl8 : s8.loc last = s7.loc last := f8.loc last (by simp [Instr.dst, Ne.symm hlast'])
  have ha9 : s9.loc a = if a = .AX then 0 else s.loc a := by
    rw [f9.loc a (by simp [Instr.dst, halast])]
    split
    · rename_i hh; rw [hh, v8]
    · rename_i hh
      have hm := ha
      rw [f8.loc a (by simp [Instr.dst, hh]), f7.loc a (by simp [hh, ha.2.2]),
        F6.loc a (by simp [hh, ha])]
  rw [ha9, o9, o8] at e10
  rw [hl8, v8, c8] at e9
  rw [← c10] at e9
  have e11 : s10.loc last + 2 ^ 64 * (s10.cf + s10.of) = s7.loc last + s7.cf + s7.of +
      (if a = .AX then 0 else s.loc a) := by omega
  generalize (if a = Loc.AX then 0 else s.loc a) = A at *
  rw [hv7] at e7
  have hli' : li.length = ts.length := by omega
  rw [hv10, List.map_cons, wv_cons, ep]
  rw [← hlen, pow_succ (2 ^ 64)]
  rw [← hli'] at e7
  generalize (2 : Nat) ^ 64 = B at *
  linear_combination (B * B ^ li.length) * e11 + B * e7 + e6

/-- The first part of `MUL_WORD_N` (element_4w_amd64.s:266-274). -/
def wordN (t0 : Loc) (ts : List Loc) (bp : Loc) (xs : List Opd) : List Instr :=
  [.xor (.l .AX) .AX, .mulx (xs.headD (.imm 0)) .AX bp, .adox (.l .AX) t0] ++ (mulGo bp ts xs.tail ++
  [.mov (.imm 0) .AX, .adcx (.l .AX) bp, .adox (.l .AX) bp])

theorem wordN_ok (hP : Consts P) {s : St} (h : s.Ok) (t0 : Loc) (ts : List Loc) (bp : Loc) (xs : List Opd) :
    (execs P s (wordN t0 ts bp xs)).Ok := by
  rw [wordN, execs_append, execs_append]
  exact execs_ok hP _ _ (mulGo_ok hP _ _ _ _ (execs_ok hP _ _ h rfl)) rfl

theorem wordN_fr (s : St) (t0 : Loc) (ts : List Loc) (bp : Loc) (xs : List Opd) :
    Fr (.AX :: bp :: t0 :: ts) s (execs P s (wordN t0 ts bp xs)) := by
  rw [wordN, execs_append, execs_append]
  refine (execs_fr _ _ s fun i hi => ?_).trans (((mulGo_fr bp ts xs.tail _).mono ?_).trans
    (execs_fr _ _ _ fun i hi => ?_))
  · simp only [List.mem_cons, List.not_mem_nil, or_false] at hi
    rcases hi with rfl | rfl | rfl <;> exact ⟨rfl, by simp [Instr.dst]⟩
  · intro z hz; simp only [List.mem_cons] at hz ⊢; tauto
  · simp only [List.mem_cons, List.not_mem_nil, or_false] at hi
    rcases hi with rfl | rfl | rfl <;> exact ⟨rfl, by simp [Instr.dst]⟩

theorem wordN_spec {s : St} {t0 : Loc} {ts : List Loc} {bp : Loc} {x0 : Opd} {xs : List Opd}
    (hl : ts.length = xs.length) (hnd : (bp :: t0 :: ts).Nodup) (hax : Loc.AX ∉ bp :: t0 :: ts)
    (hdx : Loc.DX ∉ bp :: t0 :: ts) (hx : ∀ x ∈ x0 :: xs, x.avoids (.AX :: bp :: t0 :: ts) = true) :
    ∃ c, wv ((t0 :: ts).map (execs P s (wordN t0 ts bp (x0 :: xs))).loc) + (2 ^ 64) ^ (ts.length + 1) *
      ((execs P s (wordN t0 ts bp (x0 :: xs))).loc bp + 2 ^ 64 * c) =
      wv ((t0 :: ts).map s.loc) + s.loc .DX * wv ((x0 :: xs).map (s.rd P)) := by
  rw [wordN, execs_append, execs_append]
  simp only [List.mem_cons, not_or, List.nodup_cons] at hax hdx hnd
  simp only [execs_cons, execs_nil, List.headD_cons, List.tail_cons]
  obtain ⟨-, c1, o1⟩ := xor_spec (P := P) s .AX
  have f1 := exec_fr (P := P) s (.xor (.l .AX) .AX) rfl
  generalize exec P s (.xor (.l .AX) .AX) = s1 at *
  obtain ⟨e2, c2, o2⟩ := mulx_spec (P := P) s1 x0 hax.1
  have f2 := exec_fr (P := P) s1 (.mulx x0 .AX bp) rfl
  generalize exec P s1 (.mulx x0 .AX bp) = s2 at *
  obtain ⟨e3, c3⟩ := adox_spec (P := P) s2 (.l .AX) t0
  have f3 := exec_fr (P := P) s2 (.adox (.l .AX) t0) rfl
  generalize exec P s2 (.adox (.l .AX) t0) = s3 at *
  have e4 := mulGo_spec (P := P) hax.1 hdx.1 ts xs s3 hl (by simp [hnd]) hax.2.2 hdx.2.2
    (fun o ho => Opd.avoids_mono (by intro z hz; simp only [List.mem_cons] at hz ⊢; tauto)
      (hx o (by simp [ho])))
  have f4 := mulGo_fr (P := P) bp ts xs s3
  generalize execs P s3 (mulGo bp ts xs) = s4 at *
  obtain ⟨v5, c5, o5⟩ := mov_spec (P := P) s4 (.imm 0) .AX
  have f5 := exec_fr (P := P) s4 (.mov (.imm 0) .AX) rfl
  generalize exec P s4 (.mov (.imm 0) .AX) = s5 at *
  obtain ⟨e6, o6⟩ := adcx_spec (P := P) s5 (.l .AX) bp
  have f6 := exec_fr (P := P) s5 (.adcx (.l .AX) bp) rfl
  generalize exec P s5 (.adcx (.l .AX) bp) = s6 at *
  obtain ⟨e7, c7⟩ := adox_spec (P := P) s6 (.l .AX) bp
  have f7 := exec_fr (P := P) s6 (.adox (.l .AX) bp) rfl
  generalize exec P s6 (.adox (.l .AX) bp) = s7 at *
  have F3 : Fr [.AX, bp, t0] s s3 := by
    refine (f1.mono ?_).trans <| (f2.mono ?_).trans (f3.mono ?_) <;> simp [Instr.dst]
  have hts3 : ts.map s3.loc = ts.map s.loc := F3.locs fun z hz => by
    simp only [List.mem_cons, List.not_mem_nil, or_false, not_or]
    refine ⟨fun hh => ?_, fun hh => ?_, fun hh => ?_⟩ <;> subst hh
    · exact hax.2.2 hz
    · exact hnd.1.2 hz
    · exact hnd.2.1 hz
  have hxs3 : xs.map (s3.rd P) = xs.map (s.rd P) :=
    F3.rds fun o ho => Opd.avoids_mono (by simp) (hx o (by simp [ho]))
  have hdx3 : s3.loc .DX = s.loc .DX := F3.loc _ (by simp [hdx])
  have hdx1 : s1.loc .DX = s.loc .DX := f1.loc _ (by simp [Instr.dst])
  have hx01 : s1.rd P x0 = s.rd P x0 := f1.rd (Opd.avoids_mono (by simp [Instr.dst]) (hx x0 (by simp)))
  have ht02 : s2.loc t0 = s.loc t0 := by
    rw [f2.loc t0 (by simp only [Instr.dst, List.mem_cons, List.not_mem_nil, or_false, not_or]
                      exact ⟨Ne.symm hax.2.1, Ne.symm hnd.1.1⟩),
      f1.loc t0 (by simp [Instr.dst, Ne.symm hax.2.1])]
  have hbp3 : s3.loc bp = s2.loc bp := f3.loc bp (by simp [Instr.dst, hnd.1.1])
  have ht04 : s4.loc t0 = s3.loc t0 := f4.loc t0 (by
    simp only [List.mem_cons, not_or]; exact ⟨Ne.symm hax.2.1, Ne.symm hnd.1.1, hnd.2.1⟩)
  have F7 : Fr [.AX, bp] s4 s7 := by
    refine (f5.mono ?_).trans <| (f6.mono ?_).trans (f7.mono ?_) <;> simp [Instr.dst]
  have ht7 : (t0 :: ts).map s7.loc = (t0 :: ts).map s4.loc := F7.locs fun z hz => by
    simp only [List.mem_cons, List.not_mem_nil, or_false, not_or] at hz ⊢
    refine ⟨fun hh => ?_, fun hh => ?_⟩ <;> subst hh
    · rcases hz with hz | hz
      · exact hax.2.1 hz
      · exact hax.2.2 hz
    · rcases hz with hz | hz
      · exact hnd.1.1 hz
      · exact hnd.1.2 hz
  have hbp5 : s5.loc bp = s4.loc bp := f5.loc bp (by simp [Instr.dst, Ne.symm hax.1])
  have hax6 : s6.loc .AX = 0 := by
    rw [f6.loc .AX (by simp [Instr.dst, hax.1]), v5]; simp [St.rd]
  simp only [St.rd, Nat.zero_mod] at e3 e6 e7 v5
  rw [hdx1, hx01] at e2
  rw [ht02, o2, o1] at e3
  rw [hbp3, c3, c2, c1, hts3, hxs3, hdx3] at e4
  rw [hbp5, v5, c5] at e6
  rw [hax6, o6, o5] at e7
  refine ⟨s6.cf + s7.of, ?_⟩
  rw [ht7]
  simp only [List.map_cons, wv_cons] at e4 ⊢
  rw [ht04, pow_succ (2 ^ 64)]
  generalize (2 : Nat) ^ 64 = B at *
  linear_combination (B ^ ts.length * B) * (e6 + e7) + B * e4 + e3 + e2

/-- The first part of `MUL_WORD_0` (element_4w_amd64.s:253-262). -/
def word0 (t0 : Loc) (ts : List Loc) (bp : Loc) (xs : List Opd) : List Instr :=
  [.xor (.l .AX) .AX, .mulx (xs.headD (.imm 0)) t0 (ts.headD bp)] ++
    (mul0Go (ts.headD bp) (ts.tail ++ [bp]) xs.tail ++ [.mov (.imm 0) .AX, .adox (.l .AX) bp])

theorem word0_ok (hP : Consts P) {s : St} (h : s.Ok) (t0 : Loc) (ts : List Loc) (bp : Loc) (xs : List Opd) :
    (execs P s (word0 t0 ts bp xs)).Ok := by
  rw [word0, execs_append, execs_append]
  exact execs_ok hP _ _ (mul0Go_ok hP _ _ _ _ (execs_ok hP _ _ h rfl)) rfl

theorem word0_fr (s : St) (t0 t1 : Loc) (ts : List Loc) (bp : Loc) (xs : List Opd) :
    Fr (.AX :: bp :: t0 :: t1 :: ts) s (execs P s (word0 t0 (t1 :: ts) bp xs)) := by
  rw [word0, execs_append, execs_append]
  refine (execs_fr _ _ s fun i hi => ?_).trans (((mul0Go_fr _ _ _ _).mono ?_).trans
    (execs_fr _ _ _ fun i hi => ?_))
  · simp only [List.mem_cons, List.not_mem_nil, or_false, List.headD_cons] at hi
    rcases hi with rfl | rfl <;> exact ⟨rfl, by simp [Instr.dst]⟩
  · intro z hz
    simp only [List.headD_cons, List.tail_cons, List.mem_cons, List.mem_append, List.not_mem_nil, or_false] at hz ⊢
    tauto
  · simp only [List.mem_cons, List.not_mem_nil, or_false] at hi
    rcases hi with rfl | rfl <;> exact ⟨rfl, by simp [Instr.dst]⟩

theorem word0_spec {s : St} {t0 t1 : Loc} {ts : List Loc} {bp : Loc} {x0 : Opd} {xs : List Opd}
    (hl : (t1 :: ts).length = xs.length) (hnd : (bp :: t0 :: t1 :: ts).Nodup)
    (hax : Loc.AX ∉ bp :: t0 :: t1 :: ts) (hdx : Loc.DX ∉ bp :: t0 :: t1 :: ts)
    (hx : ∀ x ∈ x0 :: xs, x.avoids (.AX :: bp :: t0 :: t1 :: ts) = true) :
    ∃ c, wv ((t0 :: t1 :: ts).map (execs P s (word0 t0 (t1 :: ts) bp (x0 :: xs))).loc) +
      (2 ^ 64) ^ ((t1 :: ts).length + 1) *
      ((execs P s (word0 t0 (t1 :: ts) bp (x0 :: xs))).loc bp + 2 ^ 64 * c) =
      s.loc .DX * wv ((x0 :: xs).map (s.rd P)) := by
  rw [word0, execs_append, execs_append]
  simp only [List.headD_cons, List.tail_cons]
  simp only [List.mem_cons, not_or, List.nodup_cons] at hax hdx hnd
  simp only [execs_cons, execs_nil]
  obtain ⟨-, c1, o1⟩ := xor_spec (P := P) s .AX
  have f1 := exec_fr (P := P) s (.xor (.l .AX) .AX) rfl
  generalize exec P s (.xor (.l .AX) .AX) = s1 at *
  obtain ⟨e2, c2, o2⟩ := mulx_spec (P := P) s1 x0 hnd.2.1.1
  have f2 := exec_fr (P := P) s1 (.mulx x0 t0 t1) rfl
  generalize exec P s1 (.mulx x0 t0 t1) = s2 at *
  have e4 := mul0Go_spec (P := P) (ts ++ [bp]) xs t1 s2 (by simpa using hl)
    (by
      rw [List.nodup_cons, List.nodup_append]
      refine ⟨?_, hnd.2.2.2, by simp, ?_⟩
      · simp only [List.mem_append, List.mem_singleton, not_or]; exact ⟨hnd.2.2.1, Ne.symm hnd.1.2.1⟩
      · intro u hu v hv
        simp only [List.mem_singleton] at hv
        subst hv
        exact fun hh => hnd.1.2.2 (hh ▸ hu))
    (by simp [hax]) (by simp [hdx])
    (fun o ho => Opd.avoids_mono (by
        intro z hz; simp only [List.mem_cons, List.mem_append, List.not_mem_nil, or_false] at hz ⊢; tauto)
      (hx o (by simp [ho])))
  have f4 := mul0Go_fr (P := P) (ts ++ [bp]) xs t1 s2
  generalize execs P s2 (mul0Go t1 (ts ++ [bp]) xs) = s4 at *
  obtain ⟨v5, c5, o5⟩ := mov_spec (P := P) s4 (.imm 0) .AX
  have f5 := exec_fr (P := P) s4 (.mov (.imm 0) .AX) rfl
  generalize exec P s4 (.mov (.imm 0) .AX) = s5 at *
  obtain ⟨e7, c7⟩ := adox_spec (P := P) s5 (.l .AX) bp
  have f7 := exec_fr (P := P) s5 (.adox (.l .AX) bp) rfl
  generalize exec P s5 (.adox (.l .AX) bp) = s7 at *
  have F2 : Fr [.AX, t0, t1] s s2 := by
    refine (f1.mono ?_).trans (f2.mono ?_) <;> simp [Instr.dst]
  have hxs2 : xs.map (s2.rd P) = xs.map (s.rd P) :=
    F2.rds fun o ho => Opd.avoids_mono (by simp) (hx o (by simp [ho]))
  have hdx2 : s2.loc .DX = s.loc .DX := F2.loc _ (by simp [hdx])
  have hdx1 : s1.loc .DX = s.loc .DX := f1.loc _ (by simp [Instr.dst])
  have hx01 : s1.rd P x0 = s.rd P x0 := f1.rd (Opd.avoids_mono (by simp [Instr.dst]) (hx x0 (by simp)))
  have ht04 : s4.loc t0 = s2.loc t0 := f4.loc t0 (by
    simp only [List.mem_cons, List.mem_append, List.not_mem_nil, or_false, not_or]
    exact ⟨Ne.symm hax.2.1, hnd.2.1.1, hnd.2.1.2, Ne.symm hnd.1.1⟩)
  have F7 : Fr [.AX, bp] s4 s7 := by
    refine (f5.mono ?_).trans (f7.mono ?_) <;> simp [Instr.dst]
  have ht7 : (t0 :: t1 :: ts).map s7.loc = (t0 :: t1 :: ts).map s4.loc := F7.locs fun z hz => by
    simp only [List.mem_cons, List.not_mem_nil, or_false, not_or] at hz ⊢
    refine ⟨fun hh => ?_, fun hh => ?_⟩ <;> subst hh
    · rcases hz with hz | hz | hz
      · exact hax.2.1 hz
      · exact hax.2.2.1 hz
      · exact hax.2.2.2 hz
    · rcases hz with hz | hz | hz
      · exact hnd.1.1 hz
      · exact hnd.1.2.1 hz
      · exact hnd.1.2.2 hz
  have hbp5 : s5.loc bp = s4.loc bp := f5.loc bp (by simp [Instr.dst, Ne.symm hax.1])
  simp only [St.rd, Nat.zero_mod] at e7 v5
  rw [hdx1, hx01] at e2
  rw [o2, o1, hdx2, hxs2] at e4
  rw [hbp5, v5, o5] at e7
  refine ⟨s7.of, ?_⟩
  rw [ht7]
  simp only [List.map_cons, List.map_append, List.map_nil] at e4 ⊢
  rw [← List.cons_append, wv_concat] at e4
  simp only [wv_cons, List.length_cons, List.length_map, List.length_append, List.length_nil, Nat.zero_add,
    Nat.add_zero] at e4 ⊢
  rw [ht04, pow_succ (2 ^ 64) (ts.length + 1)]
  generalize (2 : Nat) ^ 64 = B at *
  linear_combination (B ^ (ts.length + 1) * B) * e7 + B * e4 + e2

/-! ### Rounds -/

/-- The registers of a multiplication: the words `t0 :: ts` of the running value, the extra word `bp`, a
scratch register, and the operands that hold the first factor. -/
structure MulRegs where
  t0 : Loc
  t1 : Loc
  ts : List Loc
  li : List Loc
  last : Loc
  bp : Loc
  tmp : Loc
  xs : List Opd

namespace MulRegs

/-- The words of the running value. -/
def t (R : MulRegs) : List Loc := R.t0 :: R.t1 :: R.ts

/-- Everything the rounds write. -/
def W (R : MulRegs) : List Loc := .AX :: .DX :: R.tmp :: R.bp :: R.t

/-- The registers are different, and the rounds leave the first factor alone. -/
structure Fits (P : FieldPkg) (R : MulRegs) : Prop where
  nodup : R.W.Nodup
  len : R.t.length = P.n
  xlen : R.xs.length = P.n
  last : R.t = R.li ++ [R.last]
  xs : ∀ x ∈ R.xs, x.avoids R.W = true

end MulRegs

/-- `MUL_WORD_N()` after the load of a word of the second factor (element_4w_amd64.s:281-282). -/
def round (R : MulRegs) (n : Nat) (y : Opd) : List Instr :=
  .mov y .DX :: (wordN R.t0 (R.t1 :: R.ts) R.bp R.xs ++
    divShift R.t0 (R.t1 :: R.ts) R.tmp (qOpds n) R.bp R.last)

/-- `MUL_WORD_0()` after the load of the first word of the second factor (element_4w_amd64.s:279-280). -/
def round0 (R : MulRegs) (n : Nat) (y : Opd) : List Instr :=
  .mov y .DX :: (word0 R.t0 (R.t1 :: R.ts) R.bp R.xs ++
    divShift R.t0 (R.t1 :: R.ts) R.tmp (qOpds n) R.bp R.last)

/-- The numbers of one round. -/
theorem round_num {n T T1 T2 X x m p A c c' : Nat} (h2 : 2 * p ≤ (2 ^ 64) ^ n)
    (hT : T < 2 * p) (hx : x < p) (hX : X < 2 ^ 64) (hm : m < 2 ^ 64)
    (e1 : T1 + (2 ^ 64) ^ n * (A + 2 ^ 64 * c) = T + X * x)
    (e2 : 2 ^ 64 * (T2 + (2 ^ 64) ^ n * c') = T1 + (2 ^ 64) ^ n * A + m * p) :
    2 ^ 64 * T2 = T + X * x + m * p ∧ T2 < 2 * p := by
  have hXx : X * x ≤ (2 ^ 64 - 1) * p := Nat.mul_le_mul (by omega) (by omega)
  have hmp : m * p ≤ (2 ^ 64 - 1) * p := Nat.mul_le_mul (by omega) (by omega)
  generalize (2 ^ 64) ^ n = N at *
  generalize X * x = Xx at *
  generalize m * p = mp at *
  have e1' : T1 + N * A + 2 ^ 64 * (N * c) = T + Xx := by rw [← e1]; ring
  have hc : c = 0 := by
    rcases Nat.eq_zero_or_pos c with h | h
    · exact h
    · have : N * 1 ≤ N * c := Nat.mul_le_mul_left _ h
      generalize N * c = Nc at *
      omega
  subst hc
  have hc' : c' = 0 := by
    rcases Nat.eq_zero_or_pos c' with h | h
    · exact h
    · have : N * 1 ≤ N * c' := Nat.mul_le_mul_left _ h
      generalize N * c' = Nc at *
      generalize N * A = NA at *
      omega
  subst hc'
  simp only [Nat.mul_zero, Nat.add_zero] at *
  generalize N * A = NA at *
  constructor <;> omega

theorem mem_of_sub {W W' : List Loc} (h : W ⊆ W') {o : Opd} (ho : o.avoids W' = true) : o.avoids W = true :=
  Opd.avoids_mono h ho

theorem round_fr (R : MulRegs) (hl : R.t = R.li ++ [R.last]) (n : Nat) (y : Opd) (s : St) :
    Fr R.W s (execs P s (round R n y)) := by
  rw [round, execs_cons, execs_append]
  refine ((exec_fr _ _ rfl).mono (by simp [Instr.dst, MulRegs.W])).trans (((wordN_fr _ _ _ _ _).mono ?_).trans
    ((divShift_fr _ _ _ _ ?_).mono ?_))
  · intro z hz; simp only [MulRegs.W, MulRegs.t, List.mem_cons] at hz ⊢; tauto
  · have : R.last ∈ R.t := by rw [hl]; simp
    exact this
  · intro z hz; simp only [MulRegs.W, MulRegs.t, List.mem_cons] at hz ⊢; tauto

theorem round0_fr (R : MulRegs) (hl : R.t = R.li ++ [R.last]) (n : Nat) (y : Opd) (s : St) :
    Fr R.W s (execs P s (round0 R n y)) := by
  rw [round0, execs_cons, execs_append]
  refine ((exec_fr _ _ rfl).mono (by simp [Instr.dst, MulRegs.W])).trans (((word0_fr _ _ _ _ _ _).mono ?_).trans
    ((divShift_fr _ _ _ _ ?_).mono ?_))
  · intro z hz; simp only [MulRegs.W, MulRegs.t, List.mem_cons] at hz ⊢; tauto
  · have : R.last ∈ R.t := by rw [hl]; simp
    exact this
  · intro z hz; simp only [MulRegs.W, MulRegs.t, List.mem_cons] at hz ⊢; tauto

theorem round_ok (hP : Consts P) (R : MulRegs) (n : Nat) (y : Opd) {s : St} (h : s.Ok) :
    (execs P s (round R n y)).Ok := by
  rw [round, execs_cons, execs_append]
  exact divShift_ok hP (wordN_ok hP (exec_ok h hP _ rfl) _ _ _ _) _ _ _ _ _ _

theorem round0_ok (hP : Consts P) (R : MulRegs) (n : Nat) (y : Opd) {s : St} (h : s.Ok) :
    (execs P s (round0 R n y)).Ok := by
  rw [round0, execs_cons, execs_append]
  exact divShift_ok hP (word0_ok hP (exec_ok h hP _ rfl) _ _ _ _) _ _ _ _ _ _

/-- The common part of `round_spec` and `round0_spec`: `DIV_SHIFT` after the product. -/
theorem round_end (h : P.Good) {R : MulRegs} (hR : R.Fits P) (s : St) :
    ∃ m < 2 ^ 64, ∃ c, 2 ^ 64 * (wv (R.t.map (execs P s
      (divShift R.t0 (R.t1 :: R.ts) R.tmp (qOpds P.n) R.bp R.last)).loc) + (2 ^ 64) ^ P.n * c) =
      wv (R.t.map s.loc) + (2 ^ 64) ^ P.n * s.loc R.bp + m * P.p := by
  have hn := hR.nodup
  simp only [MulRegs.W, MulRegs.t, List.nodup_cons, List.mem_cons, not_or] at hn
  obtain ⟨m, hm, c, e⟩ := divShift_spec (P := P) (s := s) (t0 := R.t0) (ts := R.t1 :: R.ts) (li := R.li)
    (tmp := R.tmp) (a := R.bp) (last := R.last) (qs := qOpds P.n) h rfl
    (by have := hR.len; simpa [MulRegs.t] using this) hR.last
    (by simp only [List.nodup_cons, List.mem_cons, not_or]; tauto)
    (by simp only [List.mem_cons, not_or]; tauto) (by simp only [List.mem_cons, not_or]; tauto)
    (by simp only [List.mem_cons, not_or]; refine ⟨?_, ?_, ?_⟩ <;> tauto)
    (by simp only [List.mem_cons, not_or]; refine ⟨?_, ?_, ?_⟩ <;> tauto)
  refine ⟨m, hm, c, ?_⟩
  rw [if_neg (by intro hh; simp_all)] at e
  exact e

theorem round_spec (h : P.Good) (hP : Consts P) (h2 : 2 * P.p ≤ (2 ^ 64) ^ P.n) {R : MulRegs} (hR : R.Fits P)
    {s : St} (hs : s.Ok) (y : Opd) (hT : wv (R.t.map s.loc) < 2 * P.p) (hx : wv (R.xs.map (s.rd P)) < P.p) :
    ∃ m, 2 ^ 64 * wv (R.t.map (execs P s (round R P.n y)).loc) =
      wv (R.t.map s.loc) + s.rd P y * wv (R.xs.map (s.rd P)) + m * P.p ∧
      wv (R.t.map (execs P s (round R P.n y)).loc) < 2 * P.p := by
  have hn := hR.nodup
  simp only [MulRegs.W, MulRegs.t, List.nodup_cons, List.mem_cons, not_or] at hn
  obtain ⟨x0, xs, hxs⟩ : ∃ x0 xs, R.xs = x0 :: xs := by
    have h1 := hR.xlen
    have h3 := h.two_le
    rcases hh : R.xs with _ | ⟨a, b⟩
    · rw [hh] at h1; simp at h1; omega
    · exact ⟨a, b, rfl⟩
  rw [round, execs_cons, execs_append]
  obtain ⟨v1, -, -⟩ := mov_spec (P := P) s y .DX
  have f1 := exec_fr (P := P) s (.mov y .DX) rfl
  generalize exec P s (.mov y .DX) = s1 at *
  have hsub : (.AX :: R.bp :: R.t0 :: R.t1 :: R.ts) ⊆ R.W := by
    intro z hz; simp only [MulRegs.W, MulRegs.t, List.mem_cons] at hz ⊢; tauto
  obtain ⟨c, e1⟩ := wordN_spec (P := P) (s := s1) (t0 := R.t0) (ts := R.t1 :: R.ts) (bp := R.bp) (x0 := x0)
    (xs := xs) (by have h1 := hR.len; have h3 := hR.xlen; rw [hxs] at h3; simp [MulRegs.t] at h1 h3 ⊢; omega)
    (by simp only [List.nodup_cons, List.mem_cons, not_or]; tauto)
    (by simp only [List.mem_cons, not_or]; tauto) (by simp only [List.mem_cons, not_or]; tauto)
    (fun x hx => mem_of_sub hsub (hR.xs x (by rw [hxs]; exact hx)))
  rw [← hxs] at e1
  generalize execs P s1 (wordN R.t0 (R.t1 :: R.ts) R.bp R.xs) = s2 at *
  obtain ⟨m, hm, c', e2⟩ := round_end h hR s2
  have ht1 : R.t.map s1.loc = R.t.map s.loc := f1.locs fun z hz => by
    simp only [MulRegs.t, List.mem_cons] at hz
    simp only [Instr.dst, List.mem_singleton]
    intro hh
    subst hh
    tauto
  have hx1 : R.xs.map (s1.rd P) = R.xs.map (s.rd P) := f1.rds fun o ho =>
    mem_of_sub (by simp [Instr.dst, MulRegs.W]) (hR.xs o ho)
  have hlen : (R.t1 :: R.ts).length + 1 = P.n := by have := hR.len; simpa [MulRegs.t] using this
  rw [hlen, hx1, v1] at e1
  change wv (R.t.map s2.loc) + _ = wv (R.t.map s1.loc) + _ at e1
  rw [ht1] at e1
  obtain ⟨r1, r2⟩ := round_num h2 hT hx (hs.rd hP y) hm e1 e2
  exact ⟨m, r1, r2⟩

theorem round0_spec (h : P.Good) (hP : Consts P) (h2 : 2 * P.p ≤ (2 ^ 64) ^ P.n) {R : MulRegs} (hR : R.Fits P)
    {s : St} (hs : s.Ok) (y : Opd) (hx : wv (R.xs.map (s.rd P)) < P.p) :
    ∃ m, 2 ^ 64 * wv (R.t.map (execs P s (round0 R P.n y)).loc) =
      s.rd P y * wv (R.xs.map (s.rd P)) + m * P.p ∧
      wv (R.t.map (execs P s (round0 R P.n y)).loc) < 2 * P.p := by
  have hn := hR.nodup
  simp only [MulRegs.W, MulRegs.t, List.nodup_cons, List.mem_cons, not_or] at hn
  obtain ⟨x0, xs, hxs⟩ : ∃ x0 xs, R.xs = x0 :: xs := by
    have h1 := hR.xlen
    have h3 := h.two_le
    rcases hh : R.xs with _ | ⟨a, b⟩
    · rw [hh] at h1; simp at h1; omega
    · exact ⟨a, b, rfl⟩
  rw [round0, execs_cons, execs_append]
  obtain ⟨v1, -, -⟩ := mov_spec (P := P) s y .DX
  have f1 := exec_fr (P := P) s (.mov y .DX) rfl
  generalize exec P s (.mov y .DX) = s1 at *
  have hsub : (.AX :: R.bp :: R.t0 :: R.t1 :: R.ts) ⊆ R.W := by
    intro z hz; simp only [MulRegs.W, MulRegs.t, List.mem_cons] at hz ⊢; tauto
  obtain ⟨c, e1⟩ := word0_spec (P := P) (s := s1) (t0 := R.t0) (t1 := R.t1) (ts := R.ts) (bp := R.bp) (x0 := x0)
    (xs := xs) (by have h1 := hR.len; have h3 := hR.xlen; rw [hxs] at h3; simp [MulRegs.t] at h1 h3 ⊢; omega)
    (by simp only [List.nodup_cons, List.mem_cons, not_or]; tauto)
    (by simp only [List.mem_cons, not_or]; tauto) (by simp only [List.mem_cons, not_or]; tauto)
    (fun x hx => mem_of_sub hsub (hR.xs x (by rw [hxs]; exact hx)))
  rw [← hxs] at e1
  generalize execs P s1 (word0 R.t0 (R.t1 :: R.ts) R.bp R.xs) = s2 at *
  obtain ⟨m, hm, c', e2⟩ := round_end h hR s2
  have hx1 : R.xs.map (s1.rd P) = R.xs.map (s.rd P) := f1.rds fun o ho =>
    mem_of_sub (by simp [Instr.dst, MulRegs.W]) (hR.xs o ho)
  have hlen : (R.t1 :: R.ts).length + 1 = P.n := by have := hR.len; simpa [MulRegs.t] using this
  rw [hlen, hx1, v1] at e1
  change wv (R.t.map s2.loc) + _ = _ at e1
  obtain ⟨r1, r2⟩ := round_num (T := 0) h2 (by have := h.pos; omega) hx (hs.rd hP y) hm
    (by rw [e1]; omega) e2
  exact ⟨m, by rw [r1]; omega, r2⟩

/-- All later rounds. -/
def rounds (R : MulRegs) (n : Nat) (ys : List Opd) : List Instr := ys.flatMap (round R n)

theorem rounds_ok (hP : Consts P) (R : MulRegs) (n : Nat) : ∀ (ys : List Opd) {s : St}, s.Ok →
    (execs P s (rounds R n ys)).Ok
  | [], _, h => h
  | y :: ys, s, h => by
    rw [rounds, List.flatMap_cons, execs_append]
    exact rounds_ok hP R n ys (round_ok hP R n y h)

theorem rounds_fr (R : MulRegs) (hl : R.t = R.li ++ [R.last]) (n : Nat) : ∀ (ys : List Opd) (s : St),
    Fr R.W s (execs P s (rounds R n ys))
  | [], s => Fr.refl _ s
  | y :: ys, s => by
    rw [rounds, List.flatMap_cons, execs_append]
    exact (round_fr R hl n y s).trans (rounds_fr R hl n ys _)

theorem rounds_spec (h : P.Good) (hP : Consts P) (h2 : 2 * P.p ≤ (2 ^ 64) ^ P.n) {R : MulRegs} (hR : R.Fits P) :
    ∀ (ys : List Opd) {s : St}, s.Ok → (∀ y ∈ ys, y.avoids R.W = true) → wv (R.t.map s.loc) < 2 * P.p →
    wv (R.xs.map (s.rd P)) < P.p →
    ∃ M, (2 ^ 64) ^ ys.length * wv (R.t.map (execs P s (rounds R P.n ys)).loc) =
      wv (R.t.map s.loc) + wv (ys.map (s.rd P)) * wv (R.xs.map (s.rd P)) + M * P.p ∧
      wv (R.t.map (execs P s (rounds R P.n ys)).loc) < 2 * P.p
  | [], s, _, _, hT, _ => ⟨0, by simp [rounds, execs_nil, wv], hT⟩
  | y :: ys, s, hs, hy, hT, hx => by
    obtain ⟨m, e1, b1⟩ := round_spec h hP h2 hR hs y hT hx
    have f1 := round_fr (P := P) R hR.last P.n y s
    have ok1 := round_ok hP R P.n y hs
    rw [rounds, List.flatMap_cons, execs_append]
    generalize execs P s (round R P.n y) = s1 at *
    have hxs : R.xs.map (s1.rd P) = R.xs.map (s.rd P) := f1.rds hR.xs
    have hys : ys.map (s1.rd P) = ys.map (s.rd P) := f1.rds fun o ho => hy o (by simp [ho])
    obtain ⟨M, e2, b2⟩ := rounds_spec h hP h2 hR ys ok1 (fun o ho => hy o (by simp [ho])) b1 (by rw [hxs]; exact hx)
    rw [hxs, hys] at e2
    refine ⟨m + 2 ^ 64 * M, ?_, b2⟩
    rw [List.map_cons, wv_cons, List.length_cons, pow_succ (2 ^ 64)]
    rw [rounds] at e2
    generalize (2 : Nat) ^ 64 = B at *
    linear_combination e1 + B * e2

end Ringo.Amd64
