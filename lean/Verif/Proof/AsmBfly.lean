import Verif.Proof.AsmFun

/-!
# The amd64 assembly: butterflies
-/

namespace Ringo.Amd64

variable {P : FieldPkg}

/-- The immediate operands with the words of the modulus. -/
def cqOpds (n : Nat) : List Opd := (List.range n).map Opd.cq

theorem cqOpds_val (s : St) : (cqOpds P.n).map (s.rd P) = P.q := by
  rw [← qOpds_val (P := P) s, cqOpds, qOpds, List.map_map, List.map_map]
  rfl

theorem cqOpds_avoids {n : Nat} {o : Opd} (h : o ∈ cqOpds n) (W : List Loc) : o.avoids W = true := by
  obtain ⟨i, _, rfl⟩ := List.mem_map.1 h
  rfl

theorem addChain_zeros : ∀ (e : List Nat), Words e → (addChain e (List.replicate e.length 0) 0).1 = e
  | [], _ => rfl
  | x :: e, h => by
    have hx : x < 2 ^ 64 := h x (by simp)
    have ih := addChain_zeros e fun w hw => h w (by simp [hw])
    have e1 : add64 x 0 0 = (x, 0) := by
      simp only [add64, Nat.add_zero, Nat.mod_eq_of_lt hx, Nat.div_eq_of_lt hx]
    rw [List.length_cons, List.replicate_succ, addChain, e1]
    simp only [ih]

/-- The value of the difference with the modulus or zeros added. -/
theorem sub_eq {x y : List Nat} (hx : x.length = P.n) (wx : Words x) (hy : y.length = P.n)
    (wy : Words y) : P.sub x y = (addChain (subChain x y 0).1
      (if (subChain x y 0).2 = 1 then P.q else List.replicate P.n 0) 0).1 := by
  obtain ⟨-, l, w, b⟩ := subChain_spec x y 0 wx wy (hx.trans hy.symm) (by omega)
  unfold FieldPkg.sub
  rcases hb : subChain x y 0 with ⟨z, c⟩
  rw [hb] at l w b
  simp only at l w b ⊢
  rcases Nat.lt_or_ge c 1 with h0 | h0
  · have : c = 0 := by omega
    subst this
    simp only [bne_self_eq_false, Bool.false_eq_true, if_false, Nat.zero_ne_one]
    rw [← hx, ← l]
    exact (addChain_zeros z w).symm
  · have : c = 1 := by omega
    subst this
    simp

/-- `CMOVQCC` from the same register. -/
def cmovccs (z : Loc) (gs : List Loc) : List Instr := gs.map (Instr.cmovcc (.l z))

theorem cmovccs_fr (z : Loc) : ∀ (gs : List Loc) (s : St), Fr gs s (execs P s (cmovccs z gs))
  | [], s => Fr.refl _ s
  | g :: gs, s => by
    rw [cmovccs, List.map_cons, execs_cons]
    exact ((exec_fr s (.cmovcc (.l z) g) rfl).mono (by simp [Instr.dst])).trans ((cmovccs_fr z gs _).mono (by simp))

theorem cmovccs_ok (hP : Consts P) (z : Loc) : ∀ (gs : List Loc) {s : St}, s.Ok → (execs P s (cmovccs z gs)).Ok
  | [], _, h => h
  | g :: gs, s, h => by
    rw [cmovccs, List.map_cons, execs_cons]; exact cmovccs_ok hP z gs (exec_ok h hP _ rfl)

theorem cmovccs_spec (z : Loc) : ∀ (gs : List Loc) (s : St), gs.Nodup → z ∉ gs →
    gs.map (execs P s (cmovccs z gs)).loc =
      if s.cf = 1 then gs.map s.loc else List.replicate gs.length (s.loc z)
  | [], s, _, _ => by simp
  | g :: gs, s, hn, hz => by
    rw [List.nodup_cons] at hn
    simp only [List.mem_cons, not_or] at hz
    change List.map (execs P (exec P s (.cmovcc (.l z) g)) (gs.map (Instr.cmovcc (.l z)))).loc (g :: gs) = _
    have v1 : (exec P s (.cmovcc (.l z) g)).loc g = if s.cf = 1 then s.loc g else s.loc z := by
      simp only [exec]; split <;> simp [St.set, St.rd]
    have c1 : (exec P s (.cmovcc (.l z) g)).cf = s.cf := by
      simp only [exec]; split <;> rfl
    have f1 := exec_fr (P := P) s (.cmovcc (.l z) g) rfl
    generalize exec P s (.cmovcc (.l z) g) = s1 at *
    have e1 := cmovccs_spec z gs s1 hn.2 hz.2
    have f2 := cmovccs_fr (P := P) z gs s1
    rw [cmovccs] at e1 f2
    generalize execs P s1 (gs.map (Instr.cmovcc (.l z))) = s2 at *
    have hgs : gs.map s1.loc = gs.map s.loc := f1.locs fun r hr => by
      simp only [Instr.dst, List.mem_singleton]; exact fun hh => hn.1 (hh ▸ hr)
    have hz1 : s1.loc z = s.loc z := f1.loc z (by simp [Instr.dst, hz.1])
    rw [List.map_cons, f2.loc g hn.1, v1, e1, c1, hgs, hz1]
    split <;> rfl

/-- `Butterfly` with 2 or 4 words (element_4w_amd64.s:160-205). -/
def bfBody (n : Nat) (ds es gs : List Loc) : List Instr :=
  .mov (.arg 0) .R15 :: (movs (memOpds n .R15) ds ++ (movs (ds.map .l) es ++ (.xor (.l .R15) .R15 ::
    .mov (.arg 1) .AX :: (adds (memOpds n .AX) ds ++ (subs (memOpds n .AX) es ++ (movs (cqOpds n) gs ++
    (cmovccs .R15 gs ++ (adds (gs.map .l) es ++ (storesFrom .AX 0 es ++ (reduceCode (qOpds n) ds es ++
    (.mov (.arg 0) .R15 :: storesFrom .R15 0 ds)))))))))))

theorem Later.locs {rs ds : List Loc} (hn : ds.Nodup) (h : ∀ r ∈ rs, r ∉ ds) : Later (rs.map .l) ds :=
  Later.of_avoids hn fun o ho => by
    obtain ⟨r, hr, rfl⟩ := List.mem_map.1 ho
    simp only [Opd.avoids, decide_eq_true_eq]
    exact h r hr

theorem bfBody_spec (h : P.Good) (hP : Consts P) (hf : P.full = false) {ds es gs : List Loc}
    (hd : ds.length = P.n) (he : es.length = P.n) (hg : gs.length = P.n)
    (hn : (Loc.AX :: Loc.R15 :: (ds ++ (es ++ gs))).Nodup) {s : St} (hs : s.Ok)
    (hx : (s.mem (s.arg 0)).length = P.n) (hy : (s.mem (s.arg 1)).length = P.n) :
    (execs P s (bfBody P.n ds es gs)).mem =
      Function.update (Function.update s.mem (s.arg 1) (P.sub (s.mem (s.arg 0)) (s.mem (s.arg 1)))) (s.arg 0)
        (P.add (s.mem (s.arg 0)) (s.mem (s.arg 1))) := by
  have hn2 := h.two_le
  rw [List.nodup_cons, List.nodup_cons, List.nodup_append, List.nodup_append] at hn
  obtain ⟨nA, nR, nd, ⟨ne, ng, neg⟩, ndeg⟩ := hn
  simp only [List.mem_cons, List.mem_append, not_or] at nA nR ndeg
  obtain ⟨hAR, hAd, hAe, hAg⟩ := nA
  obtain ⟨hRd, hRe, hRg⟩ := nR
  have dE : ∀ r ∈ ds, r ∉ es := fun r hr hh => ndeg r hr r (Or.inl hh) rfl
  have dG : ∀ r ∈ ds, r ∉ gs := fun r hr hh => ndeg r hr r (Or.inr hh) rfl
  have eD : ∀ r ∈ es, r ∉ ds := fun r hr hh => dE r hh hr
  have eG : ∀ r ∈ es, r ∉ gs := fun r hr hh => neg r hr r hh rfl
  have gE : ∀ r ∈ gs, r ∉ es := fun r hr hh => eG r hh hr
  rw [bfBody, execs_cons, execs_append, execs_append, execs_cons, execs_cons, execs_append, execs_append,
    execs_append, execs_append, execs_append, execs_append, execs_append, execs_cons]
  -- the first element, twice
  obtain ⟨v1, -, -⟩ := mov_spec (P := P) s (.arg 0) .R15
  have f1 := exec_fr (P := P) s (.mov (.arg 0) .R15) rfl
  have ok1 := exec_ok hs hP (.mov (.arg 0) .R15) rfl
  generalize exec P s (.mov (.arg 0) .R15) = s1 at *
  have v1' : s1.loc .R15 = s.arg 0 := v1
  have e2 := movs_spec (P := P) (memOpds P.n .R15) ds s1 (by rw [memOpds_length, hd])
    (Later.of_avoids nd fun o ho => memOpds_avoids hRd ho)
  rw [memOpds_val s1 .R15 (by rw [v1', f1.mem, hx]), v1', f1.mem] at e2
  have f2 := movs_fr (P := P) (memOpds P.n .R15) ds s1
  have ok2 := movs_ok hP (memOpds P.n .R15) ds ok1
  generalize execs P s1 (movs (memOpds P.n .R15) ds) = s2 at *
  have e3 := movs_spec (P := P) (ds.map .l) es s2 (by rw [List.length_map, hd, he]) (Later.locs ne dE)
  rw [locs_eq, e2] at e3
  have f3 := movs_fr (P := P) (ds.map .l) es s2
  have ok3 := movs_ok hP (ds.map .l) es ok2
  generalize execs P s2 (movs (ds.map .l) es) = s3 at *
  have d3 : ds.map s3.loc = s.mem (s.arg 0) := (f3.locs dE).trans e2
  obtain ⟨z4, -, -⟩ := xor_spec (P := P) s3 .R15
  have f4 := exec_fr (P := P) s3 (.xor (.l .R15) .R15) rfl
  have ok4 := exec_ok ok3 hP (.xor (.l .R15) .R15) rfl
  generalize exec P s3 (.xor (.l .R15) .R15) = s4 at *
  obtain ⟨v5, -, -⟩ := mov_spec (P := P) s4 (.arg 1) .AX
  have f5 := exec_fr (P := P) s4 (.mov (.arg 1) .AX) rfl
  have ok5 := exec_ok ok4 hP (.mov (.arg 1) .AX) rfl
  generalize exec P s4 (.mov (.arg 1) .AX) = s5 at *
  have m5 : s5.mem = s.mem := by rw [f5.mem, f4.mem, f3.mem, f2.mem, f1.mem]
  have g5 : s5.arg = s.arg := by rw [f5.arg, f4.arg, f3.arg, f2.arg, f1.arg]
  have a5 : s5.loc .AX = s.arg 1 := by
    rw [v5]; change s4.arg 1 = _; rw [← f5.arg, g5]
  have z5 : s5.loc .R15 = 0 := by
    rw [f5.loc _ (by simp [Instr.dst]), z4]
  have d5 : ds.map s5.loc = s.mem (s.arg 0) := by
    rw [f5.locs (fun r hr => by simp only [Instr.dst, List.mem_singleton]; rintro rfl; exact hAd hr),
      f4.locs (fun r hr => by simp only [Instr.dst, List.mem_singleton]; rintro rfl; exact hRd hr), d3]
  have e5 : es.map s5.loc = s.mem (s.arg 0) := by
    rw [f5.locs (fun r hr => by simp only [Instr.dst, List.mem_singleton]; rintro rfl; exact hAe hr),
      f4.locs (fun r hr => by simp only [Instr.dst, List.mem_singleton]; rintro rfl; exact hRe hr), e3]
  have y5 : (memOpds P.n .AX).map (s5.rd P) = s.mem (s.arg 1) := by
    rw [memOpds_val s5 .AX (by rw [a5, m5, hy]), a5, m5]
  -- the sum and the difference
  have e6 := adds_spec (P := P) (memOpds P.n .AX) ds s5 (by rw [memOpds_length, hd])
    (Later.of_avoids nd fun o ho => memOpds_avoids hAd ho)
  rw [d5, y5] at e6
  have f6 := adds_fr (P := P) (memOpds P.n .AX) ds s5
  have ok6 := adds_ok hP (memOpds P.n .AX) ds ok5
  generalize execs P s5 (adds (memOpds P.n .AX) ds) = s6 at *
  have y6 : (memOpds P.n .AX).map (s6.rd P) = s.mem (s.arg 1) :=
    (f6.rds fun o ho => memOpds_avoids hAd ho).trans y5
  obtain ⟨e7, c7⟩ := subs_spec (P := P) (memOpds P.n .AX) es s6 (by rw [memOpds_length, he])
    (Later.of_avoids ne fun o ho => memOpds_avoids hAe ho) (by rintro rfl; simp at he; omega)
  rw [f6.locs eD, e5, y6] at e7 c7
  have f7 := subs_fr (P := P) (memOpds P.n .AX) es s6
  have ok7 := subs_ok hP (memOpds P.n .AX) es ok6
  generalize execs P s6 (subs (memOpds P.n .AX) es) = s7 at *
  have e8 := movs_spec (P := P) (cqOpds P.n) gs s7 (by rw [hg]; simp [cqOpds])
    (Later.of_avoids ng fun o ho => cqOpds_avoids ho _)
  rw [cqOpds_val] at e8
  have f8 := movs_fr (P := P) (cqOpds P.n) gs s7
  have c8 := movs_cf (P := P) (cqOpds P.n) gs s7
  have ok8 := movs_ok hP (cqOpds P.n) gs ok7
  generalize execs P s7 (movs (cqOpds P.n) gs) = s8 at *
  have z8 : s8.loc .R15 = 0 := by rw [f8.loc _ hRg, f7.loc _ hRe, f6.loc _ hRd, z5]
  have e9 := cmovccs_spec (P := P) .R15 gs s8 ng hRg
  rw [z8, c8, c7, e8, hg] at e9
  have f9 := cmovccs_fr (P := P) .R15 gs s8
  have ok9 := cmovccs_ok hP .R15 gs ok8
  generalize execs P s8 (cmovccs .R15 gs) = s9 at *
  have e10 := adds_spec (P := P) (gs.map .l) es s9 (by rw [List.length_map, hg, he]) (Later.locs ne gE)
  rw [locs_eq, e9, f9.locs eG, f8.locs eG, e7, ← sub_eq hx (hs.mem _) hy (hs.mem _)] at e10
  have f10 := adds_fr (P := P) (gs.map .l) es s9
  have ok10 := adds_ok hP (gs.map .l) es ok9
  generalize execs P s9 (adds (gs.map .l) es) = s10 at *
  have m10 : s10.mem = s.mem := by rw [f10.mem, f9.mem, f8.mem, f7.mem, f6.mem, m5]
  have g10 : s10.arg = s.arg := by rw [f10.arg, f9.arg, f8.arg, f7.arg, f6.arg, g5]
  have a10 : s10.loc .AX = s.arg 1 := by
    rw [f10.loc _ hAe, f9.loc _ hAg, f8.loc _ hAg, f7.loc _ hAe, f6.loc _ hAd, a5]
  have d10 : ds.map s10.loc = (addChain (s.mem (s.arg 0)) (s.mem (s.arg 1)) 0).1 := by
    rw [f10.locs dE, f9.locs dG, f8.locs dG, f7.locs dE, e6]
  -- the difference is stored
  have s11 := stores_spec (P := P) .AX es s10 (by rw [a10, m10, hy, he])
  have ok11 := stores_ok hP .AX es 0 ok10
  rw [a10, m10, e10] at s11
  generalize execs P s10 (storesFrom .AX 0 es) = t11 at *
  have d11 : ds.map t11.loc = (addChain (s.mem (s.arg 0)) (s.mem (s.arg 1)) 0).1 := by rw [s11]; exact d10
  have m11 : t11.mem = Function.update s.mem (s.arg 1) (P.sub (s.mem (s.arg 0)) (s.mem (s.arg 1))) := by
    rw [s11]
  have g11 : t11.arg = s.arg := by rw [s11]; exact g10
  have e12 := reduceCode_spec h ok11 hd he (by
    rw [List.nodup_append]; exact ⟨nd, ne, fun a ha b hb hh => dE a ha (hh ▸ hb)⟩)
  rw [d11, ← add_eq hf] at e12
  have f12 := reduceCode_fr (P := P) (qOpds P.n) ds es t11
  generalize execs P t11 (reduceCode (qOpds P.n) ds es) = s12 at *
  obtain ⟨v13, -, -⟩ := mov_spec (P := P) s12 (.arg 0) .R15
  have f13 := exec_fr (P := P) s12 (.mov (.arg 0) .R15) rfl
  generalize exec P s12 (.mov (.arg 0) .R15) = s13 at *
  have a13 : s13.loc .R15 = s.arg 0 := by
    rw [v13]; change s12.arg 0 = _; rw [f12.arg, g11]
  have d13 : ds.map s13.loc = ds.map s12.loc := f13.locs fun r hr => by
    simp only [Instr.dst, List.mem_singleton]; rintro rfl; exact hRd hr
  have m13 : s13.mem = t11.mem := by rw [f13.mem, f12.mem]
  have lsub : (P.sub (s.mem (s.arg 0)) (s.mem (s.arg 1))).length = P.n := by
    rw [← e10, List.length_map, he]
  rw [stores_spec .R15 ds s13 (by
    rw [a13, m13, m11, hd]
    by_cases hxy : s.arg 0 = s.arg 1
    · rw [hxy, Function.update_self, ← hxy]; rw [← hxy] at lsub; exact lsub
    · rw [Function.update_of_ne hxy, hx])]
  simp only [a13, m13, m11, d13, e12]

theorem butterfly_call (h : P.Good) (hP : Consts P) (hf : P.full = false) {ds es gs : List Loc}
    (hd : ds.length = P.n) (he : es.length = P.n) (hg : gs.length = P.n)
    (hn : (Loc.AX :: Loc.R15 :: (ds ++ (es ++ gs))).Nodup) {code : List Instr}
    (hc : code = bfBody P.n ds es gs ++ [.ret]) (hb : (bfBody P.n ds es gs).all Instr.straight = true)
    {s : St} (hs : s.Ok) {x y : Nat} (hx : x < 2 ^ 64) (hy : y < 2 ^ 64) (hlx : (s.mem x).length = P.n)
    (hly : (s.mem y).length = P.n) :
    call P code [x, y] s = Function.update (Function.update s.mem y (P.sub (s.mem x) (s.mem y))) x
        (P.add (s.mem x) (s.mem y)) := by
  rw [call_straight code [x, y] s _ hc hb]
  exact bfBody_spec h hP hf hd he hg hn (start_ok hs [x, y] (Words.cons hx (Words.cons hy Words.nil))) hlx hly

/-! ### Seven words -/

/-- `ADDQ`/`ADCQ` of the modulus through `AX`, after the first addition. -/
def addqGo : List Opd → List Loc → List Instr
  | o :: os, d :: ds => .mov o .AX :: .adc (.l .AX) d :: addqGo os ds
  | _, _ => []

/-- The addition of the modulus through `AX` (element_7w_amd64.s:268-281). -/
def addq : List Opd → List Loc → List Instr
  | o :: os, d :: ds => .mov o .AX :: .add (.l .AX) d :: addqGo os ds
  | _, _ => []

theorem addqGo_fr : ∀ (os : List Opd) (ds : List Loc) (s : St), Fr (.AX :: ds) s (execs P s (addqGo os ds))
  | [], ds, s => by cases ds <;> exact Fr.refl _ s
  | _ :: _, [], s => Fr.refl _ s
  | o :: os, d :: ds, s => by
    rw [addqGo, execs_cons, execs_cons]
    refine ((exec_fr s (.mov o .AX) rfl).mono (by simp [Instr.dst])).trans
      (((exec_fr _ (.adc (.l .AX) d) rfl).mono (by simp [Instr.dst])).trans ((addqGo_fr os ds _).mono ?_))
    intro z hz; simp only [List.mem_cons] at hz ⊢; tauto

theorem addqGo_ok (hP : Consts P) : ∀ (os : List Opd) (ds : List Loc) {s : St}, s.Ok →
    (execs P s (addqGo os ds)).Ok
  | [], ds, _, h => by cases ds <;> exact h
  | _ :: _, [], _, h => h
  | o :: os, d :: ds, s, h => by
    rw [addqGo, execs_cons, execs_cons]
    exact addqGo_ok hP os ds (exec_ok (exec_ok h hP _ rfl) hP _ rfl)

theorem addqGo_spec : ∀ (os : List Opd) (ds : List Loc) (s : St), os.length = ds.length →
    (Loc.AX :: ds).Nodup → (∀ o ∈ os, ∀ W, o.avoids W = true) →
    ds.map (execs P s (addqGo os ds)).loc = (addChain (ds.map s.loc) (os.map (s.rd P)) s.cf).1
  | [], [], s, _, _, _ => rfl
  | o :: os, d :: ds, s, hl, hn, ho => by
    simp only [List.nodup_cons, List.mem_cons, not_or] at hn
    obtain ⟨⟨hAd, hA⟩, hd, hnd⟩ := hn
    rw [addqGo, execs_cons, execs_cons]
    obtain ⟨v1, c1, -⟩ := mov_spec (P := P) s o .AX
    have f1 := exec_fr (P := P) s (.mov o .AX) rfl
    generalize exec P s (.mov o .AX) = s1 at *
    have v2 : (exec P s1 (.adc (.l .AX) d)).loc d = (add64 (s1.loc d) (s1.loc .AX) s1.cf).1 := by
      simp [exec, St.addc, St.set, St.rd]
    have c2 : (exec P s1 (.adc (.l .AX) d)).cf = (add64 (s1.loc d) (s1.loc .AX) s1.cf).2 := rfl
    have f2 := exec_fr (P := P) s1 (.adc (.l .AX) d) rfl
    generalize exec P s1 (.adc (.l .AX) d) = s2 at *
    have e3 := addqGo_spec os ds s2 (by simpa using hl) (by rw [List.nodup_cons]; exact ⟨hA, hnd⟩)
      (fun x hx => ho x (by simp [hx]))
    have f3 := addqGo_fr (P := P) os ds s2
    generalize execs P s2 (addqGo os ds) = s3 at *
    have f12 : Fr [.AX, d] s s2 := (f1.mono (by simp [Instr.dst])).trans (f2.mono (by simp [Instr.dst]))
    have d2 : ds.map s2.loc = ds.map s.loc := f12.locs fun z hz => by
      simp only [List.mem_cons, List.not_mem_nil, or_false, not_or]
      exact ⟨fun hh => hA (hh ▸ hz), fun hh => hd (hh ▸ hz)⟩
    have o2 : os.map (s2.rd P) = os.map (s.rd P) := f12.rds fun x hx => ho x (by simp [hx]) _
    have hd1 : s1.loc d = s.loc d := f1.loc d (by simp [Instr.dst, Ne.symm hAd])
    rw [hd1, v1, c1] at v2 c2
    rw [d2, o2, c2] at e3
    simp only [List.map_cons, addChain]
    rw [f3.loc d (by simp only [List.mem_cons, not_or]; exact ⟨fun hh => hAd hh.symm, hd⟩), v2, e3]
  | [], _ :: _, _, hl, _, _ => by simp at hl
  | _ :: _, [], _, hl, _, _ => by simp at hl

theorem addq_eq (o : Opd) (os : List Opd) (d : Loc) (ds : List Loc) (s : St) :
    execs P s (addq (o :: os) (d :: ds)) = execs P s.clc (addqGo (o :: os) (d :: ds)) := by
  rw [addq, addqGo, execs_cons, execs_cons, execs_cons, execs_cons, exec_add]
  rfl

theorem addq_fr (os : List Opd) (ds : List Loc) (s : St) : Fr (.AX :: ds) s (execs P s (addq os ds)) := by
  rcases os with _ | ⟨o, os⟩
  · cases ds <;> exact Fr.refl _ s
  rcases ds with _ | ⟨d, ds⟩
  · exact Fr.refl _ s
  rw [addq_eq]
  have f := addqGo_fr (P := P) (o :: os) (d :: ds) s.clc
  exact ⟨f.loc, f.mem, f.arg, f.adx⟩

theorem clc_ok {s : St} (h : s.Ok) : s.clc.Ok := ⟨h.loc, by simp [St.clc], h.of, h.mem, h.arg⟩

theorem addq_ok (hP : Consts P) (os : List Opd) (ds : List Loc) {s : St} (h : s.Ok) :
    (execs P s (addq os ds)).Ok := by
  rcases os with _ | ⟨o, os⟩
  · cases ds <;> exact h
  rcases ds with _ | ⟨d, ds⟩
  · exact h
  rw [addq_eq]
  exact addqGo_ok hP _ _ (clc_ok h)

theorem addq_spec {ds : List Loc} (hd : ds.length = P.n) (hn : (Loc.AX :: ds).Nodup) (s : St) :
    ds.map (execs P s (addq (cqOpds P.n) ds)).loc = (addChain (ds.map s.loc) P.q 0).1 := by
  have hl : (cqOpds P.n).length = ds.length := by rw [hd]; simp [cqOpds]
  have hv := cqOpds_val (P := P) s.clc
  have ha : ∀ o ∈ cqOpds P.n, ∀ W, o.avoids W = true := fun o ho W => cqOpds_avoids ho W
  generalize cqOpds P.n = Q at *
  rcases Q with _ | ⟨o, os⟩
  · cases ds
    · rfl
    · simp at hl
  rcases ds with _ | ⟨d, ds⟩
  · simp at hl
  rw [addq_eq, addqGo_spec _ _ s.clc hl hn ha, hv]
  rfl

/-- The first part of `Butterfly` with seven words (element_7w_amd64.s:227-265). -/
def bf7A (n : Nat) (ds es : List Loc) : List Instr :=
  .mov (.arg 1) .AX :: (movs (memOpds n .AX) ds ++ (.mov (.arg 0) .AX :: (adds (memOpds n .AX) ds ++
    (movs (ds.map .l) es ++ (movs (memOpds n .AX) ds ++ (.mov (.arg 1) .AX :: subs (memOpds n .AX) ds))))))

/-- The last part (element_7w_amd64.s:282-308). -/
def bf7B (n : Nat) (ds es : List Loc) : List Instr :=
  .mov (.arg 1) .AX :: (storesFrom .AX 0 ds ++ (movs (es.map .l) ds ++ (reduceCode (qOpds n) ds es ++
    (.mov (.arg 0) .AX :: storesFrom .AX 0 ds))))

theorem bf7B_spec (h : P.Good) (hP : Consts P) {ds es : List Loc} (hd : ds.length = P.n) (he : es.length = P.n)
    (hn : (Loc.AX :: (ds ++ es)).Nodup) {s : St} (hs : s.Ok) (hx : (s.mem (s.arg 0)).length = P.n)
    (hy : (s.mem (s.arg 1)).length = P.n) :
    (execs P s (bf7B P.n ds es)).mem =
      Function.update (Function.update s.mem (s.arg 1) (ds.map s.loc)) (s.arg 0) (P.reduce (es.map s.loc)) := by
  rw [List.nodup_cons] at hn
  obtain ⟨nA, nde⟩ := hn
  have hnd := nde
  rw [List.nodup_append] at nde
  obtain ⟨nd, ne, hde⟩ := nde
  simp only [List.mem_append, not_or] at nA
  have eD : ∀ r ∈ es, r ∉ ds := fun r hr hh => hde r hh r hr rfl
  rw [bf7B, execs_cons, execs_append, execs_append, execs_append, execs_cons]
  obtain ⟨v1, -, -⟩ := mov_spec (P := P) s (.arg 1) .AX
  have f1 := exec_fr (P := P) s (.mov (.arg 1) .AX) rfl
  have ok1 := exec_ok hs hP (.mov (.arg 1) .AX) rfl
  generalize exec P s (.mov (.arg 1) .AX) = s1 at *
  have v1' : s1.loc .AX = s.arg 1 := v1
  have d1 : ds.map s1.loc = ds.map s.loc := f1.locs fun r hr => by
    simp only [Instr.dst, List.mem_singleton]; rintro rfl; exact nA.1 hr
  have e1 : es.map s1.loc = es.map s.loc := f1.locs fun r hr => by
    simp only [Instr.dst, List.mem_singleton]; rintro rfl; exact nA.2 hr
  have s2 := stores_spec (P := P) .AX ds s1 (by rw [v1', f1.mem, hy, hd])
  have ok2 := stores_ok hP .AX ds 0 ok1
  rw [v1', f1.mem, d1] at s2
  generalize execs P s1 (storesFrom .AX 0 ds) = t2 at *
  have e2 : es.map t2.loc = es.map s.loc := by rw [s2]; exact e1
  have m2 : t2.mem = Function.update s.mem (s.arg 1) (ds.map s.loc) := by rw [s2]
  have g2 : t2.arg = s.arg := by rw [s2]; exact f1.arg
  have e3 := movs_spec (P := P) (es.map .l) ds t2 (by rw [List.length_map, hd, he]) (Later.locs nd eD)
  rw [locs_eq, e2] at e3
  have f3 := movs_fr (P := P) (es.map .l) ds t2
  have ok3 := movs_ok hP (es.map .l) ds ok2
  generalize execs P t2 (movs (es.map .l) ds) = s3 at *
  have e4 := reduceCode_spec h ok3 hd he hnd
  rw [e3] at e4
  have f4 := reduceCode_fr (P := P) (qOpds P.n) ds es s3
  generalize execs P s3 (reduceCode (qOpds P.n) ds es) = s4 at *
  obtain ⟨v5, -, -⟩ := mov_spec (P := P) s4 (.arg 0) .AX
  have f5 := exec_fr (P := P) s4 (.mov (.arg 0) .AX) rfl
  generalize exec P s4 (.mov (.arg 0) .AX) = s5 at *
  have a5 : s5.loc .AX = s.arg 0 := by
    rw [v5]; change s4.arg 0 = _; rw [f4.arg, f3.arg, g2]
  have d5 : ds.map s5.loc = ds.map s4.loc := f5.locs fun r hr => by
    simp only [Instr.dst, List.mem_singleton]; rintro rfl; exact nA.1 hr
  have m5 : s5.mem = t2.mem := by rw [f5.mem, f4.mem, f3.mem]
  rw [stores_spec .AX ds s5 (by
    rw [a5, m5, m2, hd]
    by_cases hxy : s.arg 0 = s.arg 1
    · rw [hxy, Function.update_self, List.length_map, hd]
    · rw [Function.update_of_ne hxy, hx])]
  simp only [a5, m5, m2, d5, e4]

theorem bf7A_spec (hP : Consts P) (h2 : 2 ≤ P.n) {ds es : List Loc} (hd : ds.length = P.n) (he : es.length = P.n)
    (hn : (Loc.AX :: (ds ++ es)).Nodup) {s : St} (hs : s.Ok) (hx : (s.mem (s.arg 0)).length = P.n)
    (hy : (s.mem (s.arg 1)).length = P.n) :
    let s' := execs P s (bf7A P.n ds es)
    s'.Ok ∧ s'.mem = s.mem ∧ s'.arg = s.arg ∧
      es.map s'.loc = (addChain (s.mem (s.arg 1)) (s.mem (s.arg 0)) 0).1 ∧
      ds.map s'.loc = (subChain (s.mem (s.arg 0)) (s.mem (s.arg 1)) 0).1 ∧
      s'.cf = (subChain (s.mem (s.arg 0)) (s.mem (s.arg 1)) 0).2 := by
  rw [List.nodup_cons] at hn
  obtain ⟨nA, nde⟩ := hn
  rw [List.nodup_append] at nde
  obtain ⟨nd, ne, hde⟩ := nde
  simp only [List.mem_append, not_or] at nA
  have dE : ∀ r ∈ ds, r ∉ es := fun r hr hh => hde r hr r hh rfl
  have eD : ∀ r ∈ es, r ∉ ds := fun r hr hh => hde r hh r hr rfl
  have lat : Later (memOpds P.n .AX) ds := Later.of_avoids nd fun o ho => memOpds_avoids nA.1 ho
  intro s'
  have hs' : s' = execs P s (bf7A P.n ds es) := rfl
  rw [bf7A, execs_cons, execs_append, execs_cons, execs_append, execs_append, execs_append, execs_cons] at hs'
  clear_value s'
  obtain ⟨v1, -, -⟩ := mov_spec (P := P) s (.arg 1) .AX
  have f1 := exec_fr (P := P) s (.mov (.arg 1) .AX) rfl
  have ok1 := exec_ok hs hP (.mov (.arg 1) .AX) rfl
  generalize exec P s (.mov (.arg 1) .AX) = s1 at *
  have v1' : s1.loc .AX = s.arg 1 := v1
  have e2 := movs_spec (P := P) (memOpds P.n .AX) ds s1 (by rw [memOpds_length, hd]) lat
  rw [memOpds_val s1 .AX (by rw [v1', f1.mem, hy]), v1', f1.mem] at e2
  have f2 := movs_fr (P := P) (memOpds P.n .AX) ds s1
  have ok2 := movs_ok hP (memOpds P.n .AX) ds ok1
  generalize execs P s1 (movs (memOpds P.n .AX) ds) = s2 at *
  obtain ⟨v3, -, -⟩ := mov_spec (P := P) s2 (.arg 0) .AX
  have f3 := exec_fr (P := P) s2 (.mov (.arg 0) .AX) rfl
  have ok3 := exec_ok ok2 hP (.mov (.arg 0) .AX) rfl
  generalize exec P s2 (.mov (.arg 0) .AX) = s3 at *
  have m3 : s3.mem = s.mem := by rw [f3.mem, f2.mem, f1.mem]
  have g3 : s3.arg = s.arg := by rw [f3.arg, f2.arg, f1.arg]
  have a3 : s3.loc .AX = s.arg 0 := by
    rw [v3]; change s2.arg 0 = _; rw [← f3.arg, g3]
  have d3 : ds.map s3.loc = s.mem (s.arg 1) := (f3.locs fun r hr => by
    simp only [Instr.dst, List.mem_singleton]; rintro rfl; exact nA.1 hr).trans e2
  have x3 : (memOpds P.n .AX).map (s3.rd P) = s.mem (s.arg 0) := by
    rw [memOpds_val s3 .AX (by rw [a3, m3, hx]), a3, m3]
  have e4 := adds_spec (P := P) (memOpds P.n .AX) ds s3 (by rw [memOpds_length, hd]) lat
  rw [d3, x3] at e4
  have f4 := adds_fr (P := P) (memOpds P.n .AX) ds s3
  have ok4 := adds_ok hP (memOpds P.n .AX) ds ok3
  generalize execs P s3 (adds (memOpds P.n .AX) ds) = s4 at *
  have e5 := movs_spec (P := P) (ds.map .l) es s4 (by rw [List.length_map, hd, he]) (Later.locs ne dE)
  rw [locs_eq, e4] at e5
  have f5 := movs_fr (P := P) (ds.map .l) es s4
  have ok5 := movs_ok hP (ds.map .l) es ok4
  generalize execs P s4 (movs (ds.map .l) es) = s5 at *
  have m5 : s5.mem = s.mem := by rw [f5.mem, f4.mem, m3]
  have a5 : s5.loc .AX = s.arg 0 := by rw [f5.loc _ nA.2, f4.loc _ nA.1, a3]
  have e6 := movs_spec (P := P) (memOpds P.n .AX) ds s5 (by rw [memOpds_length, hd]) lat
  rw [memOpds_val s5 .AX (by rw [a5, m5, hx]), a5, m5] at e6
  have f6 := movs_fr (P := P) (memOpds P.n .AX) ds s5
  have ok6 := movs_ok hP (memOpds P.n .AX) ds ok5
  generalize execs P s5 (movs (memOpds P.n .AX) ds) = s6 at *
  obtain ⟨v7, -, -⟩ := mov_spec (P := P) s6 (.arg 1) .AX
  have f7 := exec_fr (P := P) s6 (.mov (.arg 1) .AX) rfl
  have ok7 := exec_ok ok6 hP (.mov (.arg 1) .AX) rfl
  generalize exec P s6 (.mov (.arg 1) .AX) = s7 at *
  have m7 : s7.mem = s.mem := by rw [f7.mem, f6.mem, m5]
  have g7 : s7.arg = s.arg := by rw [f7.arg, f6.arg, f5.arg, f4.arg, g3]
  have a7 : s7.loc .AX = s.arg 1 := by
    rw [v7]; change s6.arg 1 = _; rw [← f7.arg, g7]
  have d7 : ds.map s7.loc = s.mem (s.arg 0) := (f7.locs fun r hr => by
    simp only [Instr.dst, List.mem_singleton]; rintro rfl; exact nA.1 hr).trans e6
  have e7 : es.map s7.loc = (addChain (s.mem (s.arg 1)) (s.mem (s.arg 0)) 0).1 := by
    rw [f7.locs fun r hr => by simp only [Instr.dst, List.mem_singleton]; rintro rfl; exact nA.2 hr,
      f6.locs eD, e5]
  have y7 : (memOpds P.n .AX).map (s7.rd P) = s.mem (s.arg 1) := by
    rw [memOpds_val s7 .AX (by rw [a7, m7, hy]), a7, m7]
  obtain ⟨e8, c8⟩ := subs_spec (P := P) (memOpds P.n .AX) ds s7 (by rw [memOpds_length, hd]) lat
    (by rintro rfl; simp at hd; omega)
  rw [d7, y7] at e8 c8
  have f8 := subs_fr (P := P) (memOpds P.n .AX) ds s7
  have ok8 := subs_ok hP (memOpds P.n .AX) ds ok7
  rw [← hs'] at e8 c8 f8 ok8
  exact ⟨ok8, f8.mem.trans m7, f8.arg.trans g7, (f8.locs eD).trans e7, e8, c8⟩

theorem butterfly7_call (h : P.Good) (hP : Consts P) (hf : P.full = false) {ds es : List Loc}
    (hd : ds.length = P.n) (he : es.length = P.n) (hn : (Loc.AX :: (ds ++ es)).Nodup) {code : List Instr}
    (hc : code = bf7A P.n ds es ++ (.jcc 1 :: (addq (cqOpds P.n) ds ++ .label 1 :: (bf7B P.n ds es ++ [.ret]))))
    (hA : (bf7A P.n ds es).all Instr.straight = true) (hQ : (addq (cqOpds P.n) ds).all Instr.straight = true)
    (hlb : (addq (cqOpds P.n) ds).all (fun i => match i with | .label _ => false | _ => true) = true)
    (hB : (bf7B P.n ds es).all Instr.straight = true)
    {s : St} (hs : s.Ok) {x y : Nat} (hx : x < 2 ^ 64) (hy : y < 2 ^ 64) (hlx : (s.mem x).length = P.n)
    (hly : (s.mem y).length = P.n) :
    call P code [x, y] s = Function.update (Function.update s.mem y (P.sub (s.mem x) (s.mem y))) x
        (P.add (s.mem y) (s.mem x)) := by
  have hs0 := start_ok hs [x, y] (Words.cons hx (Words.cons hy Words.nil))
  have hAX : (Loc.AX :: ds).Nodup := nodup_ds hn
  have eD : ∀ r ∈ es, r ∉ Loc.AX :: ds := by
    rw [List.nodup_cons, List.nodup_append] at hn
    intro r hr
    simp only [List.mem_cons, not_or]
    refine ⟨?_, fun hh => hn.2.2.2 r hh r hr rfl⟩
    rintro rfl
    exact hn.1 (by simp [hr])
  obtain ⟨ok1, m1, g1, e1, d1, c1⟩ := bf7A_spec hP h.two_le hd he hn hs0 hlx hly
  rw [call, hc, run_append _ _ _ hA]
  generalize execs P { s with arg := fun i => [x, y].getD i 0 } (bf7A P.n ds es) = s1 at *
  have hsub := sub_eq hlx (hs.mem x) hly (hs.mem y)
  obtain ⟨-, ls, ws, cs⟩ := subChain_spec (s.mem x) (s.mem y) 0 (hs.mem x) (hs.mem y) (hlx.trans hly.symm) (by omega)
  change es.map s1.loc = (addChain (s.mem y) (s.mem x) 0).1 at e1
  change ds.map s1.loc = (subChain (s.mem x) (s.mem y) 0).1 at d1
  change s1.cf = (subChain (s.mem x) (s.mem y) 0).2 at c1
  have ha0 : s1.arg 0 = x := by rw [g1]; rfl
  have ha1 : s1.arg 1 = y := by rw [g1]; rfl
  rw [run]
  by_cases hcf : s1.cf = 1
  · rw [if_pos hcf, run_append _ _ _ hQ, run_cons _ _ _ rfl, run_straight _ _ hB]
    have e2 := addq_spec hd hAX s1
    have f2 := addq_fr (P := P) (cqOpds P.n) ds s1
    have ok2 := addq_ok hP (cqOpds P.n) ds ok1
    generalize execs P s1 (addq (cqOpds P.n) ds) = s2 at *
    change (execs P s2 (bf7B P.n ds es)).mem = _
    rw [bf7B_spec h hP hd he hn ok2 (by rw [f2.mem, f2.arg, m1, ha0]; exact hlx)
      (by rw [f2.mem, f2.arg, m1, ha1]; exact hly), f2.mem, f2.arg, m1, ha0, ha1, e2, f2.locs eD, e1, d1,
      ← add_eq hf, hsub, ← c1, if_pos hcf]
  · have hj : jumpTo 1 (addq (cqOpds P.n) ds ++ .label 1 :: (bf7B P.n ds es ++ [.ret])) =
        bf7B P.n ds es ++ [.ret] := jumpTo_here 1 _ _ (by
      intro i hi l hh
      have := List.all_eq_true.1 hlb i hi
      rw [hh] at this; simp at this)
    rw [if_neg hcf, hj, run_straight _ _ hB]
    rw [bf7B_spec h hP hd he hn ok1 (by rw [m1, ha0]; exact hlx) (by rw [m1, ha1]; exact hly), m1, ha0, ha1,
      e1, d1, ← add_eq hf, hsub, ← c1, if_neg hcf]
    have := addChain_zeros _ ws
    rw [ls, hlx] at this
    rw [this]

end Ringo.Amd64
