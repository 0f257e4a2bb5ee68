import Verif.CGen.HostSpec
import Verif.CGen.RtProps

/-!
# Lemmas about C programs that call compiled code
-/

namespace CGen

open ANF

variable {G : HeapI} {S : Sig} {C : Cfg} {W : World} {B : Defs} {e : Exp} {body : Var} {M : CFun × List CFun}

theorem Linked.calls (hL : Linked G S C W B e body M) (n : Nat) :
    CallAny G S.cenv B C.nParam (callAt S n) (callC W M.2 n) := by
  have hok := hL.seen
  have hfe : FenvOk (arOf (funEnv (.fn B e))) (funEnv (.fn B e)) := (funEnv_wf hok).ok
  have har : ∀ t, arOf (funEnv (.fn B e)) t ≤ maxArgs := (funEnv_wf hok).le
  have hM := hL.compiled
  simp only [compileC] at hM
  split at hM
  case isFalse => cases hM
  split at hM
  case h_2 => cases hM
  rename_i P s m hPs htr
  simp only [Option.some.injEq] at hM
  subst hM
  simp only [SeenE] at hok
  have hbv := hL.binders
  have hfv := hL.closed
  simp only [Exp.bv] at hbv
  simp only [Exp.fv] at hfv
  have hBfv : B.fv = ∅ := by
    rw [Finset.eq_empty_iff_forall_notMem] at hfv ⊢
    intro y hy
    refine hfv y ?_
    simp only [Defs.fv, Finset.mem_sdiff] at hy
    simp only [Finset.mem_sdiff, Finset.mem_union]
    exact ⟨.inl hy.1, hy.2⟩
  rw [List.nodup_append] at hbv
  exact callC_any hL.cenv hL.ctors hL.gc hL.prims hL.laws har hfe hL.result hPs hok.1 hbv.1 hBfv n

theorem Th.Ok.setArgs {cenv} {h : Th} {d : Nat} (ok : h.Ok G cenv B) (hb : Below d h) {a : Nat → Option CVal} :
    ({ h with args := a } : Th).Ok G cenv B :=
  ok.same (me := d) hb rfl rfl rfl rfl (fun _ _ => rfl)

/-- `call`, in any state: the result of the closure. -/
theorem callFun_sim (hL : Linked G S C W B e body M) (n d : Nat) (h : Th) (hb : Below d h) (hle : h.alloc ≤ h.limit)
    (hok : h.Ok G S.cenv B) {clo arg : Val} {c a : CVal} (hc : h.Rep G S.cenv B clo c) (ha : h.Rep G S.cenv B arg a) :
    Sim G S.cenv B d h (applyClo S n clo arg) (enter W (callC W M.2 (n + 1)) (callFun C.nParam) d [c, a] h) := by
  unfold applyClo
  split
  case h_2 => trivial
  rename_i arg0 t ρ B' f env
  cases hc with
  | boxed g1 g2 g3 g4 g5 g6 g7 g8 g9 =>
  rename_i i p cs
  simp only [List.length_cons, List.length_nil] at g6
  obtain ⟨cf, ce, rfl⟩ := List.length_eq_two.1 g6
  have hf := g8 0 _ cf rfl rfl
  have he := g8 1 _ ce rfl rfl
  have m0 := g7 0 cf rfl
  have m1 := g7 1 ce rfl
  cases hf with
  | fn hfn =>
  split
  case h_2 => trivial
  rename_i ft xs eb hfd
  split
  case h_2 => trivial
  rename_i ρ' hset
  unfold enter
  rw [if_pos (by simp [callFun])]
  apply unbreak_enter
  generalize hh0 : h.setFrame d ⟨(callFun C.nParam).rootSize, 0, none, fun _ => none⟩ = h0
  have hb0 : Below d h0 := by rw [← hh0]; exact hb.setFrame
  have hk0 : Keeps G S.cenv B d h h0 := by rw [← hh0]; exact .setFrame
  have hok0 : h0.Ok G S.cenv B := by rw [← hh0]; exact hok.setFrame hb
  have hmem : h0.mem = h.mem := by rw [← hh0]; rfl
  have hal : h0.alloc = h.alloc := by rw [← hh0]; rfl
  have hli : h0.limit = h.limit := by rw [← hh0]; rfl
  generalize hl0 : (⟨bindParams (callFun C.nParam).params [.ptr p, a], 0, 0, false⟩ : Loc) = l0
  have t1 : l0.temps callClo = some (.ptr p) := by rw [← hl0]; simp [callFun, bindParams]
  have t4 : l0.temps callArg = some a := by rw [← hl0]; simp [callFun, bindParams, callArg, callClo]
  have e1 : exec W (callC W M.2 (n + 1)) d (.set callCode (.field callClo 0)) l0 h0 = .norm (l0.setT callCode (.fn f)) h0 := by
    simp only [exec, evalC, t1]
    rw [readAt, if_pos (by omega), show ((p : Int) + 0).toNat = p + 0 by omega, hmem, m0]
  have e2 : exec W (callC W M.2 (n + 1)) d (.set callEnv (.field callClo 1)) (l0.setT callCode (.fn f)) h0 =
      .norm ((l0.setT callCode (.fn f)).setT callEnv ce) h0 := by
    simp only [exec, evalC]
    rw [show (l0.setT callCode (.fn f)).temps callClo = some (.ptr p) by
      simp only [Loc.setT]; rw [if_neg (by decide)]; exact t1]
    simp only []
    rw [readAt, if_pos (by omega), show ((p : Int) + 1).toNat = p + 1 by omega, hmem, m1]
  show Sim G S.cenv B d h (run S n ρ' eb) (exec W (callC W M.2 (n + 1)) d (callFun C.nParam).body l0 h0)
  simp only [callFun]
  rw [exec_seq e1, exec_seq e2]
  generalize hl2 : ((l0.setT callCode (.fn f)).setT callEnv ce) = l2
  rw [exec_seq (l' := { l2 with argsSet := true }) (h' := h0) (by simp only [exec])]
  generalize hl3 : ({ l2 with argsSet := true } : Loc) = l3
  have s2 : l3.temps callCode = some (.fn f) := by
    rw [← hl3, ← hl2]; simp [Loc.setT, callCode, callEnv]
  have s3 : l3.temps callEnv = some ce := by
    rw [← hl3, ← hl2]; simp [Loc.setT]
  have s4 : l3.temps callArg = some a := by
    rw [← hl3, ← hl2]
    simp only [Loc.setT]; rw [if_neg (by decide), if_neg (by decide)]; exact t4
  have sa : l3.argsSet = true := by rw [← hl3]
  have hpass : ∃ args', exec W (callC W M.2 (n + 1)) d
        (multiple ([.setArg 0 (.temp callEnv), .setArg 1 (.temp callArg)].drop C.nParam)) l3 h0 =
        .norm l3 { h0 with args := args' } ∧ ∀ (i : Nat) c, C.nParam ≤ i → [ce, a][i]? = some c → args' i = some c := by
    have hm0 : 0 < maxArgs := by decide
    have hm1 : 1 < maxArgs := by decide
    match C.nParam with
    | 0 =>
      refine ⟨setArr (setArr h0.args 0 ce) 1 a, by simp [multiple, exec, evalC, s3, s4, sa, hm0, hm1], ?_⟩
      intro i c _ hi
      match i, hi with
      | 0, hi => simpa [setArr] using hi
      | 1, hi => simpa [setArr] using hi
    | 1 =>
      refine ⟨setArr h0.args 1 a, by simp [multiple, exec, evalC, s3, s4, sa, hm0, hm1], ?_⟩
      intro i c hi hc
      match i, hi, hc with
      | 1, _, hi => simpa [setArr] using hi
    | k + 2 =>
      refine ⟨h0.args, by simp [multiple, exec], ?_⟩
      intro i c hi hc
      have := (List.getElem?_eq_some_iff.mp hc).1
      simp at this
      omega
  obtain ⟨args', q, hargs⟩ := hpass
  rw [exec_seq q]
  have hcall : evalCs d l3 { h0 with args := args' } ([CExpr.temp callEnv, CExpr.temp callArg].take C.nParam) =
      some ([ce, a].take C.nParam) := by
    match C.nParam with
    | 0 => rfl
    | 1 => simp [evalCs, evalC, s3]
    | k + 2 => simp [evalCs, evalC, s3, s4]
  have hb1 : Below (d + 1) ({ h0 with args := args' } : Th) := by
    have : Below d ({ h0 with args := args' } : Th) := Below.same hb0 rfl rfl
    exact this.mono (by omega)
  have hrep0 : ∀ v c, h.Rep G S.cenv B v c → Th.Rep G S.cenv B { h0 with args := args' } v c := by
    intro v c hr
    unfold Th.Rep at hr ⊢
    show VRep G S.cenv B h0.mem h0.alloc h0.limit v c
    rw [hmem, hal, hli]; exact hr
  have hs := hL.calls (n + 1) f ft xs eb [env, arg] [ce, a] { h0 with args := args' } (d + 1) ρ' hfd hset rfl (by
      intro i v c hv hc
      match i, hv, hc with
      | 0, hv, hc => cases hv; cases hc; exact hrep0 _ _ he
      | 1, hv, hc => cases hv; cases hc; exact hrep0 _ _ ha) hargs hb1 (by show h0.alloc ≤ h0.limit; omega) (hok0.setArgs hb0)
  have hk1 : Keeps G S.cenv B d h { h0 with args := args' } :=
    hk0.trans hb (.of_frames rfl (fun _ _ => rfl) (fun _ _ h => h))
  have hfin : ∀ o, exec W (callC W M.2 (n + 1)) d (.seq (.call callTmp (.temp callCode) ([.temp callEnv, .temp callArg].take C.nParam))
      (.ret (.temp callTmp))) l3 { h0 with args := args' } = o →
      Sim G S.cenv B d h (run S n ρ' eb) o := by
    intro o ho
    simp only [exec, evalC, s2, hcall] at ho
    change Sim G S.cenv B (d + 1) _ (run S n ρ' eb) _ at hs
    cases hr : run S n ρ' eb with
    | stuck => trivial
    | oot =>
      rw [hr] at hs
      rcases hs with hs | hs <;> rw [hs] at ho <;> simp only [afterCall] at ho <;> subst ho
      · exact .inl rfl
      · exact .inr rfl
    | val v =>
      rw [hr] at hs
      rcases hs with hs | ⟨c, h', hs, r1, r2, r3, r4⟩ <;> rw [hs] at ho <;> simp only [afterCall] at ho
      · subst ho; exact .inl rfl
      · refine .inr ⟨c, h', ?_, r1, hk1.trans hb (r2.lower (by omega)), r3, r4⟩
        rw [← ho]; simp [Loc.setT]
  exact hfin _ rfl

theorem Holds.chain {cenv} {vs : List Val} {h : Th} (hh : Holds G cenv B vs h) {k : Nat} : OnChain h k ↔ k = 0 := by
  constructor
  · intro hk
    induction hk with
    | top h1 => rw [hh.fp] at h1; cases h1; rfl
    | step _ h1 ih => subst ih; rw [hh.prev] at h1; cases h1
  · rintro rfl; exact .top hh.fp

theorem Holds.below {cenv} {vs : List Val} {h : Th} (hh : Holds G cenv B vs h) : Below 1 h := fun k hk => by
  rw [hh.chain] at hk; omega

theorem Holds.keeps {cenv} {vs : List Val} {h h' : Th} (hh : Holds G cenv B vs h) (hk : Keeps G cenv B 1 h h')
    (hle : h'.alloc ≤ h'.limit) (hok : h'.Ok G cenv B) : Holds G cenv B vs h' where
  fp := hk.fp.trans hh.fp
  prev := (hk.prev 0 (by omega)).trans hh.prev
  next := Nat.le_trans hh.next (hk.next 0 (by omega))
  vals i v hv := by
    obtain ⟨c, h1, h2⟩ := hh.vals i v hv
    have := (List.getElem?_eq_some_iff.mp hv).1
    exact hk.roots 0 (by omega) (.top hh.fp) i (Nat.lt_of_lt_of_le this hh.next) c v h1 h2
  room := hle
  ok := hok

/-- Storing a result. -/
theorem Holds.push {cenv} {vs : List Val} {h : Th} (hh : Holds G cenv B vs h) {v : Val} {c : CVal} (hr : h.Rep G cenv B v c)
    (hs : vs.length < (h.frames 0).size) : ∃ h', hostPush vs.length c h = some h' ∧ Holds G cenv B (vs ++ [v]) h' ∧
      (h'.frames 0).size = (h.frames 0).size := by
  unfold hostPush
  rw [if_pos hs]
  refine ⟨_, rfl, ?_, by simp [Th.setFrame]⟩
  generalize hF : ({ h.frames 0 with roots := setArr (h.frames 0).roots vs.length c, next := vs.length + 1 } : Frame) = F
  have hv : ∀ (i : Nat) w, (vs ++ [v])[i]? = some w → ∃ c', F.roots i = some c' ∧ h.Rep G cenv B w c' := by
    intro i w hw
    rw [← hF]
    by_cases hi : i < vs.length
    · rw [List.getElem?_append_left hi] at hw
      obtain ⟨c', h1, h2⟩ := hh.vals i w hw
      exact ⟨c', by simp only [setArr]; rw [if_neg (by omega)]; exact h1, h2⟩
    · have hlt := (List.getElem?_eq_some_iff.mp hw).1
      simp only [List.length_append, List.length_cons, List.length_nil] at hlt
      have hi' : i = vs.length := by omega
      subst hi'
      rw [List.getElem?_append_right (by omega), Nat.sub_self] at hw
      cases hw
      exact ⟨c, by simp [setArr], hr⟩
  have hch : ∀ k, OnChain (h.setFrame 0 F) k → k = 0 := by
    intro k hk
    induction hk with
    | top h1 => exact Option.some.inj (h1.symm.trans hh.fp)
    | step _ h1 ih =>
      subst ih
      simp only [Th.setFrame, if_true, ← hF] at h1
      rw [hh.prev] at h1; cases h1
  refine ⟨hh.fp, ?_, ?_, ?_, hh.room, hh.ok.heap, ?_, ?_, ?_⟩
  · simp only [Th.setFrame, if_true, ← hF]; exact hh.prev
  · simp only [Th.setFrame, if_true, ← hF, List.length_append, List.length_cons, List.length_nil]; omega
  · intro i w hw
    obtain ⟨c', h1, h2⟩ := hv i w hw
    exact ⟨c', by simp only [Th.setFrame, if_true]; exact h1, h2⟩
  · intro k hk
    rw [hch k hk]
    simp only [Th.setFrame, if_true, ← hF]
    omega
  · intro k hk j hj
    rw [hch k hk] at hj
    simp only [Th.setFrame, if_true, ← hF] at hj
    rw [hh.prev] at hj; cases hj
  · intro k hk i hi
    rw [hch k hk] at hi ⊢
    simp only [Th.setFrame, if_true, ← hF] at hi
    have hlt : i < (vs ++ [v]).length := by simp; omega
    obtain ⟨c', h1, h2⟩ := hv i _ (List.getElem?_eq_getElem hlt)
    exact ⟨c', _, by simp only [Th.setFrame, if_true]; exact h1, h2⟩

theorem Holds.val {cenv} {vs : List Val} {h : Th} (hh : Holds G cenv B vs h) {i : Nat} {v : Val} (hv : vs[i]? = some v) :
    ∃ c, hostVal vs.length h i = some c ∧ h.Rep G cenv B v c := by
  obtain ⟨c, h1, h2⟩ := hh.vals i v hv
  exact ⟨c, by unfold hostVal; rw [if_pos (List.getElem?_eq_some_iff.mp hv).1]; exact h1, h2⟩

theorem Holds.pick {cenv} {vs : List Val} {h : Th} (hh : Holds G cenv B vs h) : ∀ {is : List Nat} {ws}, pick vs is = some ws →
    ∃ cs, hostVals vs.length h is = some cs ∧ cs.length = ws.length ∧ ws.length = is.length ∧
      ∀ (k : Nat) w c, ws[k]? = some w → cs[k]? = some c → h.Rep G cenv B w c := by
  intro is
  induction is with
  | nil => intro ws h1; simp only [CGen.pick, Option.some.injEq] at h1; subst h1; exact ⟨[], rfl, rfl, rfl, fun k w c h => by simp at h⟩
  | cons i is ih =>
    intro ws h1
    simp only [CGen.pick] at h1
    split at h1
    case h_2 => cases h1
    rename_i v ws' h2 h3
    cases h1
    obtain ⟨c, a1, a2⟩ := hh.val h2
    obtain ⟨cs, b1, b2, b3, b4⟩ := ih h3
    refine ⟨c :: cs, by simp only [hostVals, a1, b1], by simp [b2], by simp [b3], ?_⟩
    intro k w d hw hd
    cases k with
    | zero => cases hw; cases hd; exact a2
    | succ k => exact b4 k w d hw hd

theorem storeAll_some : ∀ {cs : List CVal} {a : Nat} {h : Th}, h.alloc ≤ a → a + cs.length ≤ h.limit →
    ∃ mem', storeAll a cs h = some { h with mem := mem' } ∧ (∀ (k : Nat) c, cs[k]? = some c → mem' (a + k) = some c) ∧
      ∀ b, b < a ∨ a + cs.length ≤ b → mem' b = h.mem b := by
  intro cs
  induction cs with
  | nil => intro a h _ _; exact ⟨h.mem, rfl, fun k c h => by simp at h, fun _ _ => rfl⟩
  | cons c cs ih =>
    intro a h h1 h2
    simp only [List.length_cons] at h2
    obtain ⟨mem', e1, e2, e3⟩ := ih (a := a + 1) (h := { h with mem := setMem h.mem a c }) (by show h.alloc ≤ _; omega)
      (by show _ ≤ h.limit; omega)
    refine ⟨mem', by rw [storeAll, if_pos (by omega), e1], ?_, ?_⟩
    · intro k d hd
      cases k with
      | zero => cases hd; rw [Nat.add_zero, e3 a (by omega)]; simp [setMem]
      | succ k => rw [show a + (k + 1) = a + 1 + k by omega]; exact e2 k d hd
    · intro b hb
      simp only [List.length_cons] at hb
      rw [e3 b (by omega)]
      simp only [setMem]
      rw [if_neg (by omega)]

/-- `alloc_make_T_C` with enough room. -/
theorem allocMake_sim {cenv} (hc : CtorsOk cenv) (hG : G.Laws cenv B) {t : Tag} {i : Ctor.Info} (hi : cenv t = some i) {ws : List Val}
    {cs : List CVal} (hne : i.arity ≠ 0) (hw : i.arity = ws.length) (hl : cs.length = ws.length) {h : Th} {d : Nat}
    (hrep : ∀ (k : Nat) w c, ws[k]? = some w → cs[k]? = some c → h.Rep G cenv B w c) (hroom : h.alloc + (i.arity + 1) ≤ h.limit)
    (hok : h.Ok G cenv B) : Sim G cenv B d h (.val (.constr t ws)) (allocMake i.ordinal cs h) := by
  obtain ⟨mem', e1, e2, e3⟩ := storeAll_some (cs := .int (cs.length * 1024 + i.ordinal) :: cs) (a := h.alloc) (h := h) (Nat.le_refl _)
    (by simp only [List.length_cons]; omega)
  simp only [List.length_cons] at e3
  obtain ⟨g1, g2, g3⟩ := hG h.mem mem' h.alloc h.limit cs i.ordinal hok.heap (by intro h; subst h; simp at hl; omega) (hc.small t i hi hne)
    (by omega) (by
      intro c hc
      obtain ⟨k, hk⟩ := List.mem_iff_getElem?.mp hc
      have := (List.getElem?_eq_some_iff.mp hk).1
      exact ⟨_, hrep k _ c (List.getElem?_eq_getElem (by omega)) hk⟩) (e2 0 _ rfl)
    (fun k c hk => by rw [show h.alloc + 1 + k = h.alloc + (k + 1) by omega]; exact e2 (k + 1) c hk) (fun a ha => e3 a (by omega))
  have hmono : ∀ v c, h.Rep G cenv B v c → Th.Rep G cenv B { h with mem := mem', alloc := h.alloc + (cs.length + 1) } v c :=
    fun v c hr => VRep.mono (by show h.alloc ≤ h.alloc + (cs.length + 1); omega) (Nat.le_refl _)
      (fun a ha => e3 a (by omega)) g3 hr
  unfold allocMake
  rw [e1]
  refine .inr ⟨_, _, rfl, ?_, .of_frames rfl (fun _ _ => rfl) hmono, by show h.alloc + (cs.length + 1) ≤ h.limit; omega,
    hok.grow g1 hmono rfl rfl⟩
  refine .boxed hi hw (by omega) ⟨by omega, .inl ?_⟩ ?_ hl ?_ ?_ g2
  · show h.alloc + 1 + ws.length ≤ h.alloc + (cs.length + 1); omega
  · show mem' (h.alloc + 1 - 1) = _
    rw [Nat.add_sub_cancel, hw, ← hl]
    exact e2 0 _ rfl
  · intro k c hk
    show mem' (h.alloc + 1 + k) = _
    rw [show h.alloc + 1 + k = h.alloc + (k + 1) by omega]
    exact e2 (k + 1) c hk
  · intro k v c hv hk
    exact hmono v c (hrep k v c hv hk)

/-- One operation of the C program. -/
theorem hostOp_sim (hL : Linked G S C W B e body M) (n : Nat) {vs : List Val} {h : Th} (hh : Holds G S.cenv B vs h) (o : HostOp) :
    Sim G S.cenv B 1 h (srcOp S B e n vs o) (hostOp W C M n vs.length h o) := by
  cases o with
  | main =>
    exact compileC_sim hL.cenv hL.ctors hL.gc hL.prims hL.laws hL.result hL.compiled hL.seen hL.binders hL.closed n 1 h hh.below
          hh.room hh.ok
  | call i j =>
    simp only [srcOp, hostOp]
    split
    case h_2 => trivial
    rename_i f a h1 h2
    obtain ⟨c1, a1, a2⟩ := hh.val h1
    obtain ⟨c2, b1, b2⟩ := hh.val h2
    rw [a1, b1]
    exact callFun_sim hL n 1 h hh.below hh.room hh.ok a2 b2
  | enum t =>
    simp only [srcOp, hostOp, hL.cenv]
    split
    case h_2 => trivial
    rename_i i hi
    split
    case isFalse => trivial
    rename_i h0
    rw [hi]
    simp only [if_pos h0]
    exact .inr ⟨_, h, rfl, .enum hi h0, .refl, hh.room, hh.ok⟩
  | make t is =>
    simp only [srcOp, hostOp, hL.cenv]
    split
    case h_2 => trivial
    rename_i i ws hi hw
    rw [hi]
    simp only []
    split
    case isFalse => trivial
    rename_i h0
    have hres : reserve W (i.arity + 1) h = .abort ∨ ∃ h', reserve W (i.arity + 1) h = .ok h' ∧ Keeps G S.cenv B 1 h h' ∧
        h'.alloc + (i.arity + 1) ≤ h'.limit ∧ h'.Ok G S.cenv B := by
      unfold reserve
      by_cases hlow : ((i.arity + 1 : Nat) : Int) ≤ (h.limit : Int) - h.alloc
      · rw [if_pos hlow]; exact .inr ⟨h, rfl, .refl, by omega, hh.ok⟩
      · rw [if_neg hlow]
        rcases hL.gc.keeps hL.ctors (hh.ok.nalloc (n := i.arity + 1)) 1 with hg | ⟨h2, hg, hk, hroom, ok2⟩
        · exact .inl hg
        · exact .inr ⟨h2, hg, Keeps.trans hh.below (h' := { h with nalloc := i.arity + 1 })
            (.of_frames rfl (fun _ _ => rfl) (fun _ _ h => h)) hk, hroom, ok2⟩
    rcases hres with hr | ⟨h', hr, hk, hroom, hok⟩
    · rw [hr]; exact .abort
    · rw [hr]
      simp only []
      have hh' := hh.keeps hk (by omega) hok
      obtain ⟨cs, c1, c2, c3, c4⟩ := hh'.pick hw
      rw [c1]
      exact Sim.pre hh.below hk (allocMake_sim hL.ctors hL.laws hi h0.2 (by omega) c2 c4 hroom hok)
  | field i k =>
    simp only [srcOp, hostOp]
    split
    case h_2 => trivial
    rename_i t ws hv
    split
    case h_2 => trivial
    rename_i v hk
    obtain ⟨c, a1, a2⟩ := hh.val hv
    rw [a1]
    have hlt := (List.getElem?_eq_some_iff.mp hk).1
    cases a2 with
    | enum => simp at hlt
    | boxed g1 g2 g3 g4 g5 g6 g7 g8 g9 =>
      rename_i i' p cs
      have hck := List.getElem?_eq_getElem (l := cs) (i := k) (by omega)
      simp only [g7 k _ hck]
      exact .inr ⟨_, h, rfl, g8 k v _ hk hck, .refl, hh.room, hh.ok⟩

/-- What a C program has to do, given what its operations mean. -/
def SimH (G : HeapI) (cenv : Ctor.PMap Ctor.Info) (B : Defs) : SRes → HOut → Prop
  | .vals vs, o => o = .abort ∨ ∃ h', o = .ok h' ∧ Holds G cenv B vs h'
  | .oot, o => o = .abort ∨ o = .oot
  | .stuck, _ => True

theorem hostRun_sim (hL : Linked G S C W B e body M) (n : Nat) : ∀ (os : List HostOp) {vs : List Val} {h : Th},
    Holds G S.cenv B vs h → vs.length + os.length ≤ (h.frames 0).size →
    SimH G S.cenv B (srcRun S B e n os vs) (hostRun W C M n os vs.length h) := by
  intro os
  induction os with
  | nil => intro vs h hh _; exact .inr ⟨h, rfl, hh⟩
  | cons o os ih =>
    intro vs h hh hs
    simp only [List.length_cons] at hs
    have h1 := hostOp_sim hL n hh o
    simp only [srcRun, hostRun]
    cases hr : srcOp S B e n vs o with
    | stuck => trivial
    | oot =>
      rw [hr] at h1
      rcases h1 with h1 | h1 <;> rw [h1]
      · exact .inl rfl
      · exact .inr rfl
    | val v =>
      rw [hr] at h1
      rcases h1 with h1 | ⟨c, h', h1, r1, r2, r3, r4⟩ <;> rw [h1]
      · simp only []
        cases srcRun S B e n os (vs ++ [v]) with
        | vals _ => exact .inl rfl
        | oot => exact .inl rfl
        | stuck => trivial
      · obtain ⟨h'', p1, p2, p3⟩ := (hh.keeps r2 r3 r4).push r1 (by rw [r2.size 0 (by omega)]; omega)
        simp only [p1]
        have := ih p2 (by rw [p3, r2.size 0 (by omega)]; simp only [List.length_append, List.length_cons, List.length_nil]; omega)
        simpa using this

end CGen
