import Verif.Proof.AsmMul
import Verif.Proof.FieldMem

/-!
# The amd64 assembly: loads, stores, additions and reductions
-/

namespace Ringo.Amd64

variable {P : FieldPkg}

/-! ### Additions and subtractions with a carry -/

/-- `ADCQ`, one word after the other. -/
def adcs : List Opd → List Loc → List Instr
  | o :: os, d :: ds => .adc o d :: adcs os ds
  | _, _ => []

/-- `SBBQ`, one word after the other. -/
def sbbs : List Opd → List Loc → List Instr
  | o :: os, d :: ds => .sbb o d :: sbbs os ds
  | _, _ => []

/-- `ADDQ` and then `ADCQ`. -/
def adds : List Opd → List Loc → List Instr
  | o :: os, d :: ds => .add o d :: adcs os ds
  | _, _ => []

/-- `SUBQ` and then `SBBQ`. -/
def subs : List Opd → List Loc → List Instr
  | o :: os, d :: ds => .sub o d :: sbbs os ds
  | _, _ => []

/-- Later sources do not read earlier destinations. -/
def Later : List Opd → List Loc → Prop
  | _ :: os, d :: ds => d ∉ ds ∧ (∀ o ∈ os, o.avoids [d] = true) ∧ Later os ds
  | _, _ => True

theorem Later.of_avoids : ∀ {os : List Opd} {ds : List Loc}, ds.Nodup → (∀ o ∈ os, o.avoids ds = true) →
    Later os ds
  | [], _, _, _ => by simp [Later]
  | _ :: _, [], _, _ => by simp [Later]
  | o :: os, d :: ds, hn, ho => by
    rw [List.nodup_cons] at hn
    exact ⟨hn.1, fun x hx => Opd.avoids_mono (by simp) (ho x (by simp [hx])),
      Later.of_avoids hn.2 fun x hx => Opd.avoids_mono (by simp) (ho x (by simp [hx]))⟩

theorem Later.self : ∀ {ds : List Loc}, ds.Nodup → Later (ds.map Opd.l) ds
  | [], _ => by simp [Later]
  | d :: ds, hn => by
    rw [List.nodup_cons] at hn
    refine ⟨hn.1, fun x hx => ?_, Later.self hn.2⟩
    obtain ⟨r, hr, rfl⟩ := List.mem_map.1 hx
    simp only [Opd.avoids, List.mem_singleton, decide_eq_true_eq]
    exact fun hh => hn.1 (hh ▸ hr)

theorem adcs_fr : ∀ (os : List Opd) (ds : List Loc) (s : St), Fr ds s (execs P s (adcs os ds))
  | [], ds, s => by cases ds <;> exact Fr.refl _ s
  | _ :: _, [], s => Fr.refl _ s
  | o :: os, d :: ds, s => by
    rw [adcs, execs_cons]
    exact ((exec_fr s (.adc o d) rfl).mono (by simp [Instr.dst])).trans ((adcs_fr os ds _).mono (by simp))

theorem sbbs_fr : ∀ (os : List Opd) (ds : List Loc) (s : St), Fr ds s (execs P s (sbbs os ds))
  | [], ds, s => by cases ds <;> exact Fr.refl _ s
  | _ :: _, [], s => Fr.refl _ s
  | o :: os, d :: ds, s => by
    rw [sbbs, execs_cons]
    exact ((exec_fr s (.sbb o d) rfl).mono (by simp [Instr.dst])).trans ((sbbs_fr os ds _).mono (by simp))

theorem adds_fr (os : List Opd) (ds : List Loc) (s : St) : Fr ds s (execs P s (adds os ds)) := by
  rcases os with _ | ⟨o, os⟩
  · cases ds <;> exact Fr.refl _ s
  rcases ds with _ | ⟨d, ds⟩
  · exact Fr.refl _ s
  rw [adds, execs_cons]
  exact ((exec_fr s (.add o d) rfl).mono (by simp [Instr.dst])).trans ((adcs_fr os ds _).mono (by simp))

theorem subs_fr (os : List Opd) (ds : List Loc) (s : St) : Fr ds s (execs P s (subs os ds)) := by
  rcases os with _ | ⟨o, os⟩
  · cases ds <;> exact Fr.refl _ s
  rcases ds with _ | ⟨d, ds⟩
  · exact Fr.refl _ s
  rw [subs, execs_cons]
  exact ((exec_fr s (.sub o d) rfl).mono (by simp [Instr.dst])).trans ((sbbs_fr os ds _).mono (by simp))

theorem adcs_ok (hP : Consts P) : ∀ (os : List Opd) (ds : List Loc) {s : St}, s.Ok →
    (execs P s (adcs os ds)).Ok
  | [], ds, _, h => by cases ds <;> exact h
  | _ :: _, [], _, h => h
  | o :: os, d :: ds, s, h => by
    rw [adcs, execs_cons]; exact adcs_ok hP os ds (exec_ok h hP _ rfl)

theorem sbbs_ok (hP : Consts P) : ∀ (os : List Opd) (ds : List Loc) {s : St}, s.Ok →
    (execs P s (sbbs os ds)).Ok
  | [], ds, _, h => by cases ds <;> exact h
  | _ :: _, [], _, h => h
  | o :: os, d :: ds, s, h => by
    rw [sbbs, execs_cons]; exact sbbs_ok hP os ds (exec_ok h hP _ rfl)

theorem adds_ok (hP : Consts P) (os : List Opd) (ds : List Loc) {s : St} (h : s.Ok) :
    (execs P s (adds os ds)).Ok := by
  rcases os with _ | ⟨o, os⟩
  · cases ds <;> exact h
  rcases ds with _ | ⟨d, ds⟩
  · exact h
  rw [adds, execs_cons]; exact adcs_ok hP os ds (exec_ok h hP _ rfl)

theorem subs_ok (hP : Consts P) (os : List Opd) (ds : List Loc) {s : St} (h : s.Ok) :
    (execs P s (subs os ds)).Ok := by
  rcases os with _ | ⟨o, os⟩
  · cases ds <;> exact h
  rcases ds with _ | ⟨d, ds⟩
  · exact h
  rw [subs, execs_cons]; exact sbbs_ok hP os ds (exec_ok h hP _ rfl)

theorem adcs_spec : ∀ (os : List Opd) (ds : List Loc) (s : St), os.length = ds.length → Later os ds →
    ds.map (execs P s (adcs os ds)).loc = (addChain (ds.map s.loc) (os.map (s.rd P)) s.cf).1 ∧
      (execs P s (adcs os ds)).cf = (addChain (ds.map s.loc) (os.map (s.rd P)) s.cf).2
  | [], [], s, _, _ => ⟨rfl, rfl⟩
  | o :: os, d :: ds, s, hl, hL => by
    obtain ⟨h1, h2, h3⟩ := hL
    rw [adcs, execs_cons]
    have v1 : (exec P s (.adc o d)).loc d = (add64 (s.loc d) (s.rd P o) s.cf).1 := by
      simp [exec, St.addc, St.set]
    have c1 : (exec P s (.adc o d)).cf = (add64 (s.loc d) (s.rd P o) s.cf).2 := rfl
    have f1 := exec_fr (P := P) s (.adc o d) rfl
    generalize exec P s (.adc o d) = s1 at *
    obtain ⟨e1, e2⟩ := adcs_spec os ds s1 (by simpa using hl) h3
    have f2 := adcs_fr (P := P) os ds s1
    generalize execs P s1 (adcs os ds) = s2 at *
    have hds : ds.map s1.loc = ds.map s.loc := f1.locs fun z hz => by
      simp only [Instr.dst, List.mem_singleton]; exact fun hh => h1 (hh ▸ hz)
    have hos : os.map (s1.rd P) = os.map (s.rd P) := f1.rds h2
    rw [hds, hos, c1] at e1 e2
    simp only [List.map_cons, addChain]
    rw [f2.loc d h1, v1, e1, e2]
    exact ⟨rfl, rfl⟩
  | [], _ :: _, _, hl, _ => by simp at hl
  | _ :: _, [], _, hl, _ => by simp at hl

theorem sbbs_spec : ∀ (os : List Opd) (ds : List Loc) (s : St), os.length = ds.length → Later os ds →
    ds.map (execs P s (sbbs os ds)).loc = (subChain (ds.map s.loc) (os.map (s.rd P)) s.cf).1 ∧
      (execs P s (sbbs os ds)).cf = (subChain (ds.map s.loc) (os.map (s.rd P)) s.cf).2
  | [], [], s, _, _ => ⟨rfl, rfl⟩
  | o :: os, d :: ds, s, hl, hL => by
    obtain ⟨h1, h2, h3⟩ := hL
    rw [sbbs, execs_cons]
    have v1 : (exec P s (.sbb o d)).loc d = (sub64 (s.loc d) (s.rd P o) s.cf).1 := by
      simp [exec, St.subc, St.set]
    have c1 : (exec P s (.sbb o d)).cf = (sub64 (s.loc d) (s.rd P o) s.cf).2 := rfl
    have f1 := exec_fr (P := P) s (.sbb o d) rfl
    generalize exec P s (.sbb o d) = s1 at *
    obtain ⟨e1, e2⟩ := sbbs_spec os ds s1 (by simpa using hl) h3
    have f2 := sbbs_fr (P := P) os ds s1
    generalize execs P s1 (sbbs os ds) = s2 at *
    have hds : ds.map s1.loc = ds.map s.loc := f1.locs fun z hz => by
      simp only [Instr.dst, List.mem_singleton]; exact fun hh => h1 (hh ▸ hz)
    have hos : os.map (s1.rd P) = os.map (s.rd P) := f1.rds h2
    rw [hds, hos, c1] at e1 e2
    simp only [List.map_cons, subChain]
    rw [f2.loc d h1, v1, e1, e2]
    exact ⟨rfl, rfl⟩
  | [], _ :: _, _, hl, _ => by simp at hl
  | _ :: _, [], _, hl, _ => by simp at hl

/-- The state with a clear carry. -/
def St.clc (s : St) : St := { s with cf := 0 }

theorem rd_clc (s : St) : ∀ o, (s.clc).rd P o = s.rd P o
  | .l _ | .imm _ | .qInv | .cq _ | .q _ | .mem _ _ | .arg _ => rfl

theorem exec_add (s : St) (o : Opd) (d : Loc) : exec P s (.add o d) = exec P s.clc (.adc o d) := by
  cases o <;> rfl

theorem exec_sub (s : St) (o : Opd) (d : Loc) : exec P s (.sub o d) = exec P s.clc (.sbb o d) := by
  cases o <;> rfl

theorem adds_spec (os : List Opd) (ds : List Loc) (s : St) (hl : os.length = ds.length) (hL : Later os ds) :
    ds.map (execs P s (adds os ds)).loc = (addChain (ds.map s.loc) (os.map (s.rd P)) 0).1 := by
  rcases os with _ | ⟨o, os⟩
  · cases ds
    · rfl
    · simp at hl
  rcases ds with _ | ⟨d, ds⟩
  · simp at hl
  have := (adcs_spec (P := P) (o :: os) (d :: ds) s.clc hl hL).1
  rw [adds, execs_cons, exec_add]
  rw [adcs, execs_cons] at this
  rw [this, List.map_congr_left (fun x _ => rd_clc s x)]
  rfl

theorem subs_spec (os : List Opd) (ds : List Loc) (s : St) (hl : os.length = ds.length) (hL : Later os ds)
    (hne : ds ≠ []) :
    ds.map (execs P s (subs os ds)).loc = (subChain (ds.map s.loc) (os.map (s.rd P)) 0).1 ∧
      (execs P s (subs os ds)).cf = (subChain (ds.map s.loc) (os.map (s.rd P)) 0).2 := by
  rcases ds with _ | ⟨d, ds⟩
  · exact absurd rfl hne
  rcases os with _ | ⟨o, os⟩
  · simp at hl
  have := sbbs_spec (P := P) (o :: os) (d :: ds) s.clc hl hL
  rw [subs, execs_cons, exec_sub]
  rw [sbbs, execs_cons] at this
  rw [this.1, this.2, List.map_congr_left (fun x _ => rd_clc s x)]
  exact ⟨rfl, rfl⟩

/-! ### Moves -/

/-- `MOVQ`, one word after the other. -/
def movs : List Opd → List Loc → List Instr
  | o :: os, d :: ds => .mov o d :: movs os ds
  | _, _ => []

theorem movs_fr : ∀ (os : List Opd) (ds : List Loc) (s : St), Fr ds s (execs P s (movs os ds))
  | [], ds, s => by cases ds <;> exact Fr.refl _ s
  | _ :: _, [], s => Fr.refl _ s
  | o :: os, d :: ds, s => by
    rw [movs, execs_cons]
    exact ((exec_fr s (.mov o d) rfl).mono (by simp [Instr.dst])).trans ((movs_fr os ds _).mono (by simp))

theorem movs_ok (hP : Consts P) : ∀ (os : List Opd) (ds : List Loc) {s : St}, s.Ok →
    (execs P s (movs os ds)).Ok
  | [], ds, _, h => by cases ds <;> exact h
  | _ :: _, [], _, h => h
  | o :: os, d :: ds, s, h => by
    rw [movs, execs_cons]; exact movs_ok hP os ds (exec_ok h hP _ rfl)

theorem movs_cf : ∀ (os : List Opd) (ds : List Loc) (s : St), (execs P s (movs os ds)).cf = s.cf
  | [], ds, _ => by cases ds <;> rfl
  | _ :: _, [], _ => rfl
  | o :: os, d :: ds, s => by rw [movs, execs_cons, movs_cf os ds]; rfl

theorem movs_spec : ∀ (os : List Opd) (ds : List Loc) (s : St), os.length = ds.length → Later os ds →
    ds.map (execs P s (movs os ds)).loc = os.map (s.rd P)
  | [], [], s, _, _ => rfl
  | o :: os, d :: ds, s, hl, hL => by
    obtain ⟨h1, h2, h3⟩ := hL
    rw [movs, execs_cons]
    obtain ⟨v1, -, -⟩ := mov_spec (P := P) s o d
    have f1 := exec_fr (P := P) s (.mov o d) rfl
    generalize exec P s (.mov o d) = s1 at *
    have e1 := movs_spec os ds s1 (by simpa using hl) h3
    have f2 := movs_fr (P := P) os ds s1
    have hos : os.map (s1.rd P) = os.map (s.rd P) := f1.rds h2
    rw [List.map_cons, List.map_cons, e1, hos, f2.loc d h1, v1]
  | [], _ :: _, _, hl, _ => by simp at hl
  | _ :: _, [], _, hl, _ => by simp at hl

/-- The operands `0(R)`, `8(R)`, ... -/
def memOpds (n : Nat) (b : Loc) : List Opd := (List.range n).map fun i => Opd.mem i b

theorem memOpds_val {n : Nat} (s : St) (b : Loc) (h : (s.mem (s.loc b)).length = n) :
    (memOpds n b).map (s.rd P) = s.mem (s.loc b) := by
  rw [memOpds, List.map_map]
  subst h
  refine List.ext_getElem (by simp) fun i h1 h2 => ?_
  simp only [List.getElem_map, List.getElem_range, Function.comp, St.rd]
  rw [List.getD_eq_getElem?_getD, List.getElem?_eq_getElem h2]; rfl

theorem memOpds_avoids {n : Nat} {b : Loc} {W : List Loc} (hb : b ∉ W) {o : Opd} (h : o ∈ memOpds n b) :
    o.avoids W = true := by
  obtain ⟨i, _, rfl⟩ := List.mem_map.1 h
  simpa [Opd.avoids] using hb

theorem memOpds_length (n : Nat) (b : Loc) : (memOpds n b).length = n := by simp [memOpds]

/-- `MOVQ` to memory, one word after the other. -/
def storesFrom (b : Loc) : Nat → List Loc → List Instr
  | _, [] => []
  | i, r :: rs => .store r i b :: storesFrom b (i + 1) rs

theorem storesFrom_spec (b : Loc) (L : List Nat) : ∀ (rs : List Loc) (i : Nat) (s : St),
    L.drop i = rs.map s.loc →
    execs P s (storesFrom b i rs) = { s with mem := memStore (s.loc b) L rs.length i s.mem }
  | [], _, _, _ => rfl
  | r :: rs, i, s, h => by
    rw [storesFrom, execs_cons]
    have hg : L.getD i 0 = s.loc r := by
      have h1 := congrArg List.head? h
      rw [List.head?_drop] at h1
      rw [List.getD_eq_getElem?_getD, h1]; rfl
    have ht : L.drop (i + 1) = rs.map s.loc := by
      rw [← List.tail_drop, h]; rfl
    rw [storesFrom_spec b L rs (i + 1) (exec P s (.store r i b)) ht]
    simp only [exec, List.length_cons, memStore, hg]

theorem stores_spec (b : Loc) (rs : List Loc) (s : St) (h : (s.mem (s.loc b)).length = rs.length) :
    execs P s (storesFrom b 0 rs) = { s with mem := Function.update s.mem (s.loc b) (rs.map s.loc) } := by
  rw [storesFrom_spec b (rs.map s.loc) rs 0 s (by simp), memStore_all _ _ _ h (by simp)]

theorem stores_ok (hP : Consts P) (b : Loc) : ∀ (rs : List Loc) (i : Nat) {s : St}, s.Ok →
    (execs P s (storesFrom b i rs)).Ok
  | [], _, _, h => h
  | r :: rs, i, s, h => by
    rw [storesFrom, execs_cons]; exact stores_ok hP b rs (i + 1) (exec_ok h hP _ rfl)

/-! ### REDUCE -/

/-- The subtractions of `REDUCE`, each after a copy of its register. -/
def redGo : List Opd → List Loc → List Loc → List Instr
  | q :: qs, a :: as, b :: bs => .mov (.l a) b :: .sbb q a :: redGo qs as bs
  | _, _, _ => []

/-- The conditional moves of `REDUCE`. -/
def cmovs : List Loc → List Loc → List Instr
  | a :: as, b :: bs => .cmovcs (.l b) a :: cmovs as bs
  | _, _ => []

/-- The macro `REDUCE` (element_4w_amd64.s:6-18). -/
def reduceCode : List Opd → List Loc → List Loc → List Instr
  | q :: qs, a :: as, b :: bs =>
    .mov (.l a) b :: .sub q a :: (redGo qs as bs ++ cmovs (a :: as) (b :: bs))
  | _, _, _ => []

theorem redGo_fr : ∀ (qs : List Opd) (as bs : List Loc) (s : St), Fr (as ++ bs) s (execs P s (redGo qs as bs))
  | [], as, bs, s => by simp only [redGo, execs_nil]; exact Fr.refl _ s
  | _ :: _, [], bs, s => by simp only [redGo, execs_nil]; exact Fr.refl _ s
  | _ :: _, _ :: _, [], s => by simp only [redGo, execs_nil]; exact Fr.refl _ s
  | q :: qs, a :: as, b :: bs, s => by
    rw [redGo, execs_cons, execs_cons]
    refine ((exec_fr s (.mov (.l a) b) rfl).mono (by simp [Instr.dst])).trans
      (((exec_fr _ (.sbb q a) rfl).mono (by simp [Instr.dst])).trans ((redGo_fr qs as bs _).mono ?_))
    intro z hz; simp only [List.mem_append, List.mem_cons] at hz ⊢; tauto

theorem redGo_ok (hP : Consts P) : ∀ (qs : List Opd) (as bs : List Loc) {s : St}, s.Ok →
    (execs P s (redGo qs as bs)).Ok
  | [], as, bs, _, h => by simpa only [redGo, execs_nil] using h
  | _ :: _, [], bs, _, h => by simpa only [redGo, execs_nil] using h
  | _ :: _, _ :: _, [], _, h => by simpa only [redGo, execs_nil] using h
  | q :: qs, a :: as, b :: bs, s, h => by
    rw [redGo, execs_cons, execs_cons]
    exact redGo_ok hP qs as bs (exec_ok (exec_ok h hP _ rfl) hP _ rfl)

theorem cmovs_fr : ∀ (as bs : List Loc) (s : St), Fr as s (execs P s (cmovs as bs))
  | [], bs, s => by cases bs <;> exact Fr.refl _ s
  | _ :: _, [], s => Fr.refl _ s
  | a :: as, b :: bs, s => by
    rw [cmovs, execs_cons]
    exact ((exec_fr s (.cmovcs (.l b) a) rfl).mono (by simp [Instr.dst])).trans ((cmovs_fr as bs _).mono (by simp))

theorem cmovs_ok (hP : Consts P) : ∀ (as bs : List Loc) {s : St}, s.Ok → (execs P s (cmovs as bs)).Ok
  | [], bs, _, h => by cases bs <;> exact h
  | _ :: _, [], _, h => h
  | a :: as, b :: bs, s, h => by
    rw [cmovs, execs_cons]; exact cmovs_ok hP as bs (exec_ok h hP _ rfl)

theorem reduceCode_fr (qs : List Opd) (as bs : List Loc) (s : St) :
    Fr (as ++ bs) s (execs P s (reduceCode qs as bs)) := by
  rcases qs with _ | ⟨q, qs⟩
  · simp only [reduceCode, execs_nil]; exact Fr.refl _ s
  rcases as with _ | ⟨a, as⟩
  · simp only [reduceCode, execs_nil]; exact Fr.refl _ s
  rcases bs with _ | ⟨b, bs⟩
  · simp only [reduceCode, execs_nil]; exact Fr.refl _ s
  rw [reduceCode, execs_cons, execs_cons, execs_append]
  refine ((exec_fr s (.mov (.l a) b) rfl).mono (by simp [Instr.dst])).trans
    (((exec_fr _ (.sub q a) rfl).mono (by simp [Instr.dst])).trans
      (((redGo_fr qs as bs _).mono ?_).trans ((cmovs_fr _ _ _).mono ?_)))
  · intro z hz; simp only [List.mem_append, List.mem_cons] at hz ⊢; tauto
  · intro z hz; simp only [List.mem_append, List.mem_cons] at hz ⊢; tauto

theorem reduceCode_ok (hP : Consts P) (qs : List Opd) (as bs : List Loc) {s : St} (h : s.Ok) :
    (execs P s (reduceCode qs as bs)).Ok := by
  rcases qs with _ | ⟨q, qs⟩
  · simpa only [reduceCode, execs_nil] using h
  rcases as with _ | ⟨a, as⟩
  · simpa only [reduceCode, execs_nil] using h
  rcases bs with _ | ⟨b, bs⟩
  · simpa only [reduceCode, execs_nil] using h
  rw [reduceCode, execs_cons, execs_cons, execs_append]
  exact cmovs_ok hP _ _ (redGo_ok hP _ _ _ (exec_ok (exec_ok h hP _ rfl) hP _ rfl))

theorem redGo_spec : ∀ (qs : List Opd) (as bs : List Loc) (s : St), qs.length = as.length →
    bs.length = as.length → (as ++ bs).Nodup → (∀ q ∈ qs, q.avoids (as ++ bs) = true) →
    as.map (execs P s (redGo qs as bs)).loc = (subChain (as.map s.loc) (qs.map (s.rd P)) s.cf).1 ∧
      (execs P s (redGo qs as bs)).cf = (subChain (as.map s.loc) (qs.map (s.rd P)) s.cf).2 ∧
      bs.map (execs P s (redGo qs as bs)).loc = as.map s.loc
  | [], [], [], s, _, _, _, _ => ⟨rfl, rfl, rfl⟩
  | q :: qs, a :: as, b :: bs, s, h1, h2, hn, hq => by
    have hn' := hn
    rw [List.nodup_append] at hn'
    obtain ⟨na, nb, nd⟩ := hn'
    rw [List.nodup_cons] at na nb
    have hab : a ≠ b := nd a (by simp) b (by simp)
    rw [redGo, execs_cons, execs_cons]
    obtain ⟨v1, c1, -⟩ := mov_spec (P := P) s (.l a) b
    have f1 := exec_fr (P := P) s (.mov (.l a) b) rfl
    generalize exec P s (.mov (.l a) b) = s1 at *
    have v2 : (exec P s1 (.sbb q a)).loc a = (sub64 (s1.loc a) (s1.rd P q) s1.cf).1 := by
      simp [exec, St.subc, St.set]
    have c2 : (exec P s1 (.sbb q a)).cf = (sub64 (s1.loc a) (s1.rd P q) s1.cf).2 := rfl
    have f2 := exec_fr (P := P) s1 (.sbb q a) rfl
    generalize exec P s1 (.sbb q a) = s2 at *
    obtain ⟨e1, e2, e3⟩ := redGo_spec qs as bs s2 (by simpa using h1) (by simpa using h2)
      (by
        rw [List.nodup_append]
        exact ⟨na.2, nb.2, fun x hx y hy => nd x (by simp [hx]) y (by simp [hy])⟩)
      (fun x hx => Opd.avoids_mono (by intro z hz; simp only [List.mem_append, List.mem_cons] at hz ⊢; tauto)
        (hq x (by simp [hx])))
    have f3 := redGo_fr (P := P) qs as bs s2
    generalize execs P s2 (redGo qs as bs) = s3 at *
    have f12 : Fr [a, b] s s2 := (f1.mono (by simp [Instr.dst])).trans (f2.mono (by simp [Instr.dst]))
    have has : as.map s2.loc = as.map s.loc := f12.locs fun z hz => by
      simp only [List.mem_cons, List.not_mem_nil, or_false, not_or]
      exact ⟨fun hh => na.1 (hh ▸ hz), fun hh => nd z (by simp [hz]) b (by simp) hh⟩
    have hqs : qs.map (s2.rd P) = qs.map (s.rd P) := f12.rds fun o ho =>
      Opd.avoids_mono (by intro z hz; simp only [List.mem_append, List.mem_cons, List.not_mem_nil, or_false] at hz ⊢; tauto) (hq o (by simp [ho]))
    have ha1 : s1.loc a = s.loc a := f1.loc a (by simp [Instr.dst, hab])
    have hq1 : s1.rd P q = s.rd P q := f1.rd (Opd.avoids_mono (by simp [Instr.dst]) (hq q (by simp)))
    have ha3 : s3.loc a = s2.loc a := f3.loc a (by
      simp only [List.mem_append, not_or]; exact ⟨na.1, fun hh => nd a (by simp) a (by simp [hh]) rfl⟩)
    have hb3 : s3.loc b = s.loc a := by
      rw [f3.loc b (by
        simp only [List.mem_append, not_or]; exact ⟨fun hh => nd b (by simp [hh]) b (by simp) rfl, nb.1⟩),
        f2.loc b (by simp [Instr.dst, hab.symm]), v1]
      rfl
    rw [ha1, hq1, c1] at v2 c2
    rw [has, hqs, c2] at e1 e2
    simp only [List.map_cons, subChain]
    rw [ha3, v2, e1, e2, hb3, e3, has]
    exact ⟨rfl, rfl, rfl⟩
  | [], _ :: _, _, _, h, _, _, _ => by simp at h
  | _ :: _, [], _, _, h, _, _, _ => by simp at h
  | [], [], _ :: _, _, _, h, _, _ => by simp at h
  | _ :: _, _ :: _, [], _, _, h, _, _ => by simp at h

theorem cmovs_spec : ∀ (as bs : List Loc) (s : St), bs.length = as.length → (as ++ bs).Nodup →
    as.map (execs P s (cmovs as bs)).loc = if s.cf = 1 then bs.map s.loc else as.map s.loc
  | [], [], s, _, _ => by simp
  | a :: as, b :: bs, s, h2, hn => by
    have hn' := hn
    rw [List.nodup_append] at hn'
    obtain ⟨na, nb, nd⟩ := hn'
    rw [List.nodup_cons] at na nb
    rw [cmovs, execs_cons]
    have v1 : (exec P s (.cmovcs (.l b) a)).loc a = if s.cf = 1 then s.loc b else s.loc a := by
      simp only [exec]; split <;> simp [St.set, St.rd]
    have c1 : (exec P s (.cmovcs (.l b) a)).cf = s.cf := by
      simp only [exec]; split <;> rfl
    have f1 := exec_fr (P := P) s (.cmovcs (.l b) a) rfl
    generalize exec P s (.cmovcs (.l b) a) = s1 at *
    have e1 := cmovs_spec as bs s1 (by simpa using h2)
      (by
        rw [List.nodup_append]
        exact ⟨na.2, nb.2, fun x hx y hy => nd x (by simp [hx]) y (by simp [hy])⟩)
    have f2 := cmovs_fr (P := P) as bs s1
    generalize execs P s1 (cmovs as bs) = s2 at *
    have has : as.map s1.loc = as.map s.loc := f1.locs fun z hz => by
      simp only [Instr.dst, List.mem_singleton]; exact fun hh => na.1 (hh ▸ hz)
    have hbs : bs.map s1.loc = bs.map s.loc := f1.locs fun z hz => by
      simp only [Instr.dst, List.mem_singleton]; exact fun hh => nd a (by simp) z (by simp [hz]) hh.symm
    simp only [List.map_cons]
    rw [f2.loc a na.1, v1, e1, c1, has, hbs]
    split <;> rfl
  | [], _ :: _, _, h, _ => by simp at h
  | _ :: _, [], _, h, _ => by simp at h

/-- The macro `REDUCE` computes `reduce`. -/
theorem reduceCode_spec (h : P.Good) {s : St} (hs : s.Ok) {as bs : List Loc} (ha : as.length = P.n)
    (hb : bs.length = P.n) (hn : (as ++ bs).Nodup) :
    as.map (execs P s (reduceCode (qOpds P.n) as bs)).loc = P.reduce (as.map s.loc) := by
  have h2 := h.two_le
  have hql : (qOpds P.n).length = P.n := by simp [qOpds]
  have hqv := qOpds_val (P := P) s
  have hqa : ∀ o ∈ qOpds P.n, ∀ W, o.avoids W = true := fun o ho W => qOpds_avoids ho W
  generalize qOpds P.n = Q at *
  rcases Q with _ | ⟨q, qs⟩
  · simp at hql; omega
  rcases as with _ | ⟨a, as⟩
  · simp at ha; omega
  rcases bs with _ | ⟨b, bs⟩
  · simp at hb; omega
  have e : execs P s (reduceCode (q :: qs) (a :: as) (b :: bs)) =
      execs P (execs P s.clc (redGo (q :: qs) (a :: as) (b :: bs))) (cmovs (a :: as) (b :: bs)) := by
    have : exec P (exec P s (.mov (.l a) b)) (.sub q a) = exec P (exec P s.clc (.mov (.l a) b)) (.sbb q a) := by
      rw [exec_sub]; rfl
    rw [reduceCode, execs_cons, execs_cons, execs_append, this]
    rfl
  obtain ⟨e1, e2, e3⟩ := redGo_spec (P := P) (q :: qs) (a :: as) (b :: bs) s.clc (by rw [hql, ha]) (by rw [hb, ha])
    hn (fun o ho => hqa o ho _)
  rw [e, cmovs_spec _ _ _ (by rw [hb, ha]) hn, e2, e1, e3, List.map_congr_left (fun x _ => rd_clc s x), hqv]
  have hl : ((a :: as).map s.clc.loc) = (a :: as).map s.loc := rfl
  have hc : s.clc.cf = 0 := rfl
  rw [hl, hc]
  have wz := hs.words (a :: as)
  have lz : ((a :: as).map s.loc).length = P.n := by rw [List.length_map, ha]
  generalize (a :: as).map s.loc = z at *
  obtain ⟨f, l, w, bb⟩ := subChain_spec z P.q 0 wz h.q_words lz (by omega)
  have hlt := wv_lt w
  rw [l] at hlt
  have hsm := FieldPkg.smaller_spec h lz wz
  have ep : wv P.q = P.p := rfl
  unfold FieldPkg.reduce
  by_cases hlt' : wv z < P.p
  · rw [if_pos (by
      rcases Nat.lt_or_ge (subChain z P.q 0).2 1 with h0 | h0
      · have : (subChain z P.q 0).2 = 0 := by omega
        rw [this] at f; omega
      · omega), hsm.2 hlt']
    simp
  · have hs' : P.smaller z = false := by
      by_contra hh
      exact hlt' (hsm.1 (by simpa using hh))
    rw [if_neg (by
      intro h1
      rw [h1, Nat.mul_one] at f
      generalize (2 ^ 64) ^ z.length = B at *
      omega), hs']
    simp

end Ringo.Amd64
