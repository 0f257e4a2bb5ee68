import Verif.CGen.Lemmas

/-! # Executing the pieces of generated code -/

namespace CGen

open ANF

variable {G : HeapI} {cenv : Ctor.PMap Ctor.Info} {B : Defs} {W : World} {call : Nat → Var → List CVal → Th → Out} {me : Nat}

theorem exec_seq {a b l h l' h'} (e : exec W call me a l h = .norm l' h') :
    exec W call me (.seq a b) l h = exec W call me b l' h' := by
  simp only [exec, e]

theorem exec_seq_stop {a b l h o} (e : exec W call me a l h = o) (ho : ∀ l h, o ≠ .norm l h) :
    exec W call me (.seq a b) l h = o := by
  cases o with
  | norm l h => exact absurd rfl (ho l h)
  | _ => simp only [exec, e]

theorem exec_skip {l h} : exec W call me .skip l h = .norm l h := by simp only [exec]

/-- The states agree except for the roots of activation `me`. -/
structure SameBut (me : Nat) (h h' : Th) : Prop where
  mem : h'.mem = h.mem
  alloc : h'.alloc = h.alloc
  limit : h'.limit = h.limit
  nalloc : h'.nalloc = h.nalloc
  args : h'.args = h.args
  fp : h'.fp = h.fp
  other : ∀ k, k ≠ me → h'.frames k = h.frames k
  size : (h'.frames me).size = (h.frames me).size
  next : (h'.frames me).next = (h.frames me).next
  prev : (h'.frames me).prev = (h.frames me).prev

theorem SameBut.refl {h} : SameBut me h h := ⟨rfl, rfl, rfl, rfl, rfl, rfl, fun _ _ => rfl, rfl, rfl, rfl⟩

theorem SameBut.trans {h h' h''} (a : SameBut me h h') (b : SameBut me h' h'') : SameBut me h h'' :=
  ⟨b.mem.trans a.mem, b.alloc.trans a.alloc, b.limit.trans a.limit, b.nalloc.trans a.nalloc, b.args.trans a.args,
    b.fp.trans a.fp, fun k hk => (b.other k hk).trans (a.other k hk), b.size.trans a.size, b.next.trans a.next,
    b.prev.trans a.prev⟩

/-- Saving live variables. -/
theorem exec_pushAux : ∀ (xs : List Var) (n : Nat) (s : CStmt) (l : Loc) (h : Th),
    (∀ x ∈ xs, ∃ c, l.temps x = some c) → n + xs.length ≤ (h.frames me).size →
    ∃ h1, exec W call me (pushAux xs n s).1 l h = exec W call me s l h1 ∧ SameBut me h h1 ∧
      (∀ (i : Nat) x, xs[i]? = some x → (h1.frames me).roots (n + i) = l.temps x) ∧
      (∀ j, j < n → (h1.frames me).roots j = (h.frames me).roots j) := by
  intro xs
  induction xs with
  | nil => intro n s l h _ _; exact ⟨h, rfl, .refl, fun i x hx => by simp at hx, fun _ _ => rfl⟩
  | cons x xs ih =>
    intro n s l h hx hs
    simp only [List.length_cons] at hs
    obtain ⟨h1, he, hsb, hr, ho⟩ := ih (n + 1) (.seq (.setRoot n (.temp x)) s) l h
      (fun y hy => hx y (List.mem_cons_of_mem _ hy)) (by omega)
    obtain ⟨c, hc⟩ := hx x (by simp)
    refine ⟨h1.setFrame me { h1.frames me with roots := setArr (h1.frames me).roots n c }, ?_, ?_, ?_, ?_⟩
    · rw [pushAux, he]
      refine exec_seq ?_
      simp only [exec, evalC, hc]
      rw [if_pos (by rw [hsb.size]; omega)]
    · refine hsb.trans ⟨rfl, rfl, rfl, rfl, rfl, rfl, fun k hk => ?_, ?_, ?_, ?_⟩ <;> simp [Th.setFrame, *]
    · intro i y hy
      cases i with
      | zero =>
        simp only [List.getElem?_cons_zero, Option.some.injEq] at hy
        subst hy
        simp [Th.setFrame, setArr, hc]
      | succ i =>
        simp only [List.getElem?_cons_succ] at hy
        have := hr i y hy
        simp only [Th.setFrame, if_true]
        rw [setArr, if_neg (by omega), show n + (i + 1) = n + 1 + i by omega]
        exact this
    · intro j hj
      simp only [Th.setFrame, if_true]
      rw [setArr, if_neg (by omega)]
      exact ho j (by omega)

theorem pushAux_snd : ∀ (xs : List Var) (n : Nat) (s : CStmt), (pushAux xs n s).2 = n + xs.length
  | [], _, _ => rfl
  | _ :: xs, n, s => by rw [pushAux, pushAux_snd xs]; simp only [List.length_cons]; omega

/-- Reloading variables. -/
theorem exec_popAux : ∀ (xs : List Var) (n : Nat) (s : CStmt) (l : Loc) (h : Th), xs.Nodup →
    (∀ (i : Nat), i < xs.length → ∃ c, (h.frames me).roots (n + i) = some c) → n + xs.length ≤ (h.frames me).size →
    ∃ l', exec W call me (popAux xs n s) l h = exec W call me s l' h ∧
      l'.alloc = l.alloc ∧ l'.limit = l.limit ∧
      (∀ (i : Nat) x, xs[i]? = some x → l'.temps x = (h.frames me).roots (n + i)) ∧
      (∀ y, y ∉ xs → l'.temps y = l.temps y) := by
  intro xs
  induction xs with
  | nil => intro n s l h _ _ _; exact ⟨l, rfl, rfl, rfl, fun i x hx => by simp at hx, fun _ _ => rfl⟩
  | cons x xs ih =>
    intro n s l h hn hx hs
    simp only [List.length_cons] at hs
    obtain ⟨l1, he, ha, hl, hr, ho⟩ := ih (n + 1) (.seq (.set x (.root n)) s) l h (List.nodup_cons.1 hn).2
      (fun i hi => by
        obtain ⟨c, hc⟩ := hx (i + 1) (by simp only [List.length_cons]; omega)
        exact ⟨c, by rw [show n + 1 + i = n + (i + 1) by omega]; exact hc⟩) (by omega)
    obtain ⟨c, hc⟩ := hx 0 (by simp only [List.length_cons]; omega)
    refine ⟨l1.setT x c, ?_, ha, hl, ?_, ?_⟩
    · rw [popAux, he]
      refine exec_seq ?_
      simp only [exec, evalC]
      rw [if_pos (by omega), show n = n + 0 from rfl, hc]
    · intro i y hy
      cases i with
      | zero =>
        simp only [List.getElem?_cons_zero, Option.some.injEq] at hy
        subst hy
        simp only [Loc.setT, if_true]
        exact hc.symm
      | succ i =>
        simp only [List.getElem?_cons_succ] at hy
        have hne : y ≠ x := fun he => (List.nodup_cons.1 hn).1 (he ▸ List.mem_of_getElem? hy)
        simp only [Loc.setT, if_neg hne]
        rw [show n + (i + 1) = n + 1 + i by omega]
        exact hr i y hy
    · intro y hy
      simp only [List.mem_cons, not_or] at hy
      simp only [Loc.setT, if_neg hy.1]
      exact ho y hy.2

/-- The state after saving `xs` and linking the frame. -/
structure Pushed (me : Nat) (xs : List Var) (l : Loc) (h h1 : Th) : Prop where
  mem : h1.mem = h.mem
  alloc : h1.alloc = h.alloc
  limit : h1.limit = h.limit
  nalloc : h1.nalloc = h.nalloc
  args : h1.args = h.args
  fp : h1.fp = if xs = [] then h.fp else some me
  other : ∀ k, k ≠ me → h1.frames k = h.frames k
  size : (h1.frames me).size = (h.frames me).size
  prev : (h1.frames me).prev = (h.frames me).prev
  next : xs ≠ [] → (h1.frames me).next = xs.length
  roots : ∀ (i : Nat) x, xs[i]? = some x → (h1.frames me).roots i = l.temps x

theorem exec_push (xs : List Var) (l : Loc) (h : Th) (hx : ∀ x ∈ xs, ∃ c, l.temps x = some c)
    (hs : xs.length ≤ (h.frames me).size) : ∃ h1,
    exec W call me (.seq (pushVars 0 xs).1 (.seq (updateStack (pushVars 0 xs).2) (setStack (pushVars 0 xs).2 false))) l h =
      .norm l h1 ∧ Pushed me xs l h h1 := by
  obtain ⟨h1, he, sb, hr, _⟩ := exec_pushAux (W := W) (call := call) (me := me) xs 0 .skip l h hx (by omega)
  rw [exec_skip] at he
  rw [show (pushVars 0 xs).2 = xs.length by rw [pushVars, pushAux_snd, Nat.zero_add]]
  rw [show (pushVars 0 xs).1 = (pushAux xs 0 .skip).1 from rfl, exec_seq he]
  by_cases hxs : xs = []
  · subst hxs
    refine ⟨h1, ?_, sb.mem, sb.alloc, sb.limit, sb.nalloc, sb.args, ?_, sb.other, sb.size, sb.prev, ?_, ?_⟩
    · simp [updateStack, setStack, exec]
    · simp [sb.fp]
    · intro h; exact absurd rfl h
    · intro i x hx; simp at hx
  · have hl : xs.length ≠ 0 := by simpa using hxs
    refine ⟨{ h1.setFrame me { h1.frames me with next := xs.length } with fp := some me }, ?_, sb.mem, sb.alloc, sb.limit,
      sb.nalloc, sb.args, ?_, ?_, ?_, ?_, ?_, ?_⟩
    · simp [updateStack, setStack, hl, exec]
    · simp [hxs]
    · intro k hk; simp [Th.setFrame, hk, sb.other k hk]
    · simp [Th.setFrame, sb.size]
    · simp [Th.setFrame, sb.prev]
    · intro _; simp [Th.setFrame]
    · intro i x hx
      have := hr i x hx
      simp only [Nat.zero_add] at this
      simp [Th.setFrame, this]

/-- The frame being on the chain or not, the frames of the callers are. -/
theorem Pushed.chain {xs l h h1} (p : Pushed me xs l h h1) (hb : Below me h) (hp : (h.frames me).prev = h.fp) :
    Below (me + 1) h1 ∧ (∀ k, OnChain h k → OnChain h1 k) ∧ (xs ≠ [] → OnChain h1 me) := by
  by_cases hxs : xs = []
  · have hfp : h1.fp = h.fp := by rw [p.fp, if_pos hxs]
    have hpr : ∀ k, k < me → (h1.frames k).prev = (h.frames k).prev := fun k hk => by rw [p.other k (by omega)]
    refine ⟨fun k hk => ?_, fun k hk => hk.congr hfp hb hpr, fun h => absurd hxs h⟩
    have := hb k (OnChain.congr' hfp hb hpr hk)
    omega
  · have hfp : h1.fp = some me := by rw [p.fp, if_neg hxs]
    have hin : ∀ k, OnChain h k → OnChain h1 k := by
      intro k hk
      induction hk with
      | top e => exact .step (.top hfp) (by rw [p.prev, hp, e])
      | step hk e ih => exact .step ih (by rw [p.other _ (Nat.ne_of_lt (hb _ hk))]; exact e)
    refine ⟨?_, hin, fun _ => .top hfp⟩
    intro k hk
    have : k = me ∨ OnChain h k := by
      induction hk with
      | top e => rw [hfp] at e; cases e; exact .inl rfl
      | step hk e ih =>
        rcases ih with rfl | ih
        · rw [p.prev, hp] at e; exact .inr (.top e)
        · rw [p.other _ (Nat.ne_of_lt (hb _ ih))] at e; exact .inr (.step ih e)
    rcases this with rfl | h
    · omega
    · have := hb k h; omega

theorem Pushed.rep {xs l h h1} (p : Pushed me xs l h h1) {v c} : h1.Rep G cenv B v c ↔ h.Rep G cenv B v c := by
  unfold Th.Rep; rw [p.mem, p.alloc, p.limit]

/-- With the frame linked the collector may be called. -/
theorem Pushed.ok {xs l h h1} (p : Pushed me xs l h h1) (hb : Below me h) (hp : (h.frames me).prev = h.fp) (ok : h.Ok G cenv B)
    (hx : ∀ x ∈ xs, ∃ c v, l.temps x = some c ∧ h.Rep G cenv B v c) (hs : xs.length ≤ (h.frames me).size) :
    h1.Ok G cenv B := by
  by_cases hxs : xs = []
  · have hfp : h1.fp = h.fp := by rw [p.fp, if_pos hxs]
    have hpr : ∀ k, k < me → (h1.frames k).prev = (h.frames k).prev := fun k hk => by rw [p.other k (by omega)]
    refine ok.sub p.mem p.alloc p.limit (fun k hk => ?_)
    have hk' := OnChain.congr' hfp hb hpr hk
    exact ⟨hk', p.other k (Nat.ne_of_lt (hb k hk'))⟩
  · have hfp : h1.fp = some me := by rw [p.fp, if_neg hxs]
    have hch : ∀ k, OnChain h1 k → k = me ∨ OnChain h k := by
      intro k hk
      induction hk with
      | top e => rw [hfp] at e; cases e; exact .inl rfl
      | step hk e ih =>
        rcases ih with rfl | ih
        · rw [p.prev, hp] at e; exact .inr (.top e)
        · rw [p.other _ (Nat.ne_of_lt (hb _ ih))] at e; exact .inr (.step ih e)
    refine ⟨by rw [p.mem, p.alloc, p.limit]; exact ok.heap, ?_, ?_, ?_⟩
    · intro k hk
      rcases hch k hk with rfl | h
      · rw [p.next hxs, p.size]; exact hs
      · rw [p.other k (Nat.ne_of_lt (hb k h))]; exact ok.size k h
    · intro k hk j hj
      rcases hch k hk with rfl | h
      · rw [p.prev, hp] at hj; exact hb j (.top hj)
      · rw [p.other k (Nat.ne_of_lt (hb k h))] at hj; exact ok.down k h j hj
    · intro k hk i hi
      rcases hch k hk with rfl | h
      · rw [p.next hxs] at hi
        have hxi := List.getElem?_eq_getElem hi
        obtain ⟨c, v, e, hr⟩ := hx _ (List.mem_of_getElem? hxi)
        exact ⟨c, v, by rw [p.roots i _ hxi]; exact e, p.rep.2 hr⟩
      · rw [p.other k (Nat.ne_of_lt (hb k h))] at hi ⊢
        obtain ⟨c, v, h1, h2⟩ := ok.roots k h i hi
        exact ⟨c, v, h1, p.rep.2 h2⟩

/-- So it may after unlinking the frame. -/
theorem Th.Ok.unlink {h : Th} (ok : h.Ok G cenv B) {fp : Option Nat} (hfp : h.fp = fp ∨ h.fp = some me ∧ (h.frames me).prev = fp) :
    ({ h with fp := fp } : Th).Ok G cenv B := by
  refine ok.sub rfl rfl rfl (fun k hk => ⟨?_, rfl⟩)
  induction hk with
  | top e =>
    rcases hfp with h1 | ⟨h1, h2⟩
    · exact .top (h1.trans e)
    · exact .step (.top h1) (h2.trans e)
  | step _ e ih => exact .step ih e

theorem Th.Ok.nalloc {h : Th} (ok : h.Ok G cenv B) {n : Nat} : ({ h with nalloc := n } : Th).Ok G cenv B :=
  ok.sub rfl rfl rfl (fun k hk => ⟨by
    induction hk with
    | top e => exact .top e
    | step _ e ih => exact .step ih e, rfl⟩)

/-- Whatever happens during the call: after it the frame can be unlinked, the callers' roots are kept, and the saved
variables are still there. -/
theorem Pushed.after {xs l h h1} (p : Pushed me xs l h h1) (hb : Below me h) (hp : (h.frames me).prev = h.fp) {h2}
    (hk : Keeps G cenv B (me + 1) h1 h2) :
    (h2.frames me).prev = h.fp ∧ (h2.frames me).size = (h.frames me).size ∧ h2.fp = (if xs = [] then h.fp else some me) ∧
    Keeps G cenv B me h { h2 with fp := h.fp } ∧
    (∀ (i : Nat) x c v, xs[i]? = some x → l.temps x = some c → h.Rep G cenv B v c →
      ∃ c', (h2.frames me).roots i = some c' ∧ h2.Rep G cenv B v c') := by
  obtain ⟨_, hc, hm⟩ := p.chain hb hp
  refine ⟨?_, ?_, ?_, ⟨rfl, ?_, ?_, ?_, ?_⟩, ?_⟩
  · rw [hk.prev me (by omega), p.prev, hp]
  · rw [hk.size me (by omega), p.size]
  · rw [hk.fp, p.fp]
  · intro k hk'; show (h2.frames k).size = _; rw [hk.size k (by omega), p.other k (by omega)]
  · intro k hk'; show _ ≤ (h2.frames k).next; rw [← p.other k (by omega)]; exact hk.next k (by omega)
  · intro k hk'; show (h2.frames k).prev = _; rw [hk.prev k (by omega), p.other k (by omega)]
  · intro k hk' hch i hi c v hcc hr
    obtain ⟨c', hc', hr'⟩ := hk.roots k (by omega) (hc k hch) i (by rw [p.other k (by omega)]; exact hi) c v
      (by rw [p.other k (by omega)]; exact hcc) (p.rep.2 hr)
    exact ⟨c', hc', hr'⟩
  · intro i x c v hx hc' hr
    have hne : xs ≠ [] := by intro h; subst h; simp at hx
    refine hk.roots me (by omega) (hm hne) i ?_ c v ?_ (p.rep.2 hr)
    · rw [p.next hne]; exact (List.getElem?_eq_some_iff.mp hx).1
    · rw [p.roots i x hx]; exact hc'

/-- The values of a list of variables are the same as before, and those of `xs` still represent the same values. -/
structure Restored (G : HeapI) (cenv : Ctor.PMap Ctor.Info) (B : Defs) (xs : List Var) (l l' : Loc) (h h' : Th) : Prop where
  alloc : l'.alloc = h'.alloc
  limit : l'.limit = h'.limit
  kept : ∀ y, y ∈ xs → ∀ c v, l.temps y = some c → h.Rep G cenv B v c → ∃ c', l'.temps y = some c' ∧ h'.Rep G cenv B v c'

/-- A collection at a point where the frame is not linked (function entry, or after a call without live variables). -/
theorem exec_gcCall_zero (hc : CtorsOk cenv) (hW : GcOk G cenv B W) (n : Nat) (xs : List Var) (hnd : xs.Nodup) (l : Loc) (h : Th)
    (hx : ∀ x ∈ xs, ∃ c v, l.temps x = some c ∧ h.Rep G cenv B v c) (hs : n ≠ 0 → xs.length ≤ (h.frames me).size)
    (hb : Below me h) (hp : (h.frames me).prev = h.fp) (hla : l.alloc = h.alloc) (hll : l.limit = h.limit)
    (hle : h.alloc ≤ h.limit) (ok : h.Ok G cenv B) :
    exec W call me (gcCall n xs 0).1 l h = .abort ∨
    ∃ l' h', exec W call me (gcCall n xs 0).1 l h = .norm l' h' ∧ Keeps G cenv B me h h' ∧
      (h'.frames me).prev = h'.fp ∧ (h'.frames me).size = (h.frames me).size ∧ h'.alloc + n ≤ h'.limit ∧
      Restored G cenv B xs l l' h h' ∧ h'.Ok G cenv B := by
  unfold gcCall
  by_cases hn : n = 0
  · rw [if_pos hn]
    refine .inr ⟨l, h, exec_skip, .refl, hp, rfl, by omega, ⟨hla, hll, fun y _ c v hc hr => ⟨c, hc, hr⟩⟩, ok⟩
  · rw [if_neg hn]
    simp only [exec]
    by_cases hlow : (n : Int) ≤ (l.limit : Int) - l.alloc
    · rw [if_pos hlow]
      refine .inr ⟨l, h, rfl, .refl, hp, rfl, by omega, ⟨hla, hll, fun y _ c v hc hr => ⟨c, hc, hr⟩⟩, ok⟩
    · rw [if_neg hlow]
      obtain ⟨h1, he, p⟩ := exec_push (W := W) (call := call) (me := me) xs l h
        (fun x hm => by obtain ⟨c, v, e, _⟩ := hx x hm; exact ⟨c, e⟩) (hs hn)
      have he' : exec W call me (.seq (pushVars 0 xs).1 (.seq (updateStack (pushVars 0 xs).2)
          (setStack (pushVars 0 xs).2 (decide ((0 : Nat) ≠ 0))))) l h = .norm l h1 := by simpa using he
      simp only [exec] at he'
      rw [he']
      simp only []
      obtain ⟨hb1, _, hm1⟩ := p.chain hb hp
      rcases hW.keeps hc ((p.ok hb hp ok hx (hs hn)).nalloc (n := n)) (me + 1) with hg | ⟨h2, hg, hk, hroom, ok2⟩
      · rw [hg]; exact .inl rfl
      · right
        rw [hg]
        simp only []
        have hk' : Keeps G cenv B (me + 1) h1 h2 :=
          Keeps.trans hb1 (h' := { h1 with nalloc := n }) (Keeps.of_frames rfl (fun _ _ => rfl) (fun _ _ h => h)) hk
        obtain ⟨a1, a2, a3, a4, a5⟩ := p.after hb hp hk'
        obtain ⟨l3, e3, la3, ll3, r3, o3⟩ := exec_popAux (W := W) (call := call) (me := me) xs 0 .skip l h2 hnd
          (fun i hi => by
            have hxi := List.getElem?_eq_getElem hi
            obtain ⟨c, v, e, hr⟩ := hx _ (List.mem_of_getElem? hxi)
            obtain ⟨c', hc', _⟩ := a5 i _ c v hxi e hr
            exact ⟨c', by simpa using hc'⟩)
          (by rw [a2]; have := hs hn; omega)
        rw [exec_skip] at e3
        rw [show popVars 0 xs = popAux xs 0 .skip from rfl, e3]
        simp only []
        have hsp : (pushVars 0 xs).2 = xs.length := by rw [pushVars, pushAux_snd, Nat.zero_add]
        have er : exec W call me (resetStack (pushVars 0 xs).2 (decide ((0 : Nat) ≠ 0))) l3 h2 =
            .norm l3 { h2 with fp := h.fp } := by
          rw [hsp]
          by_cases hxs : xs = []
          · subst hxs
            simp only [if_true] at a3
            simp [resetStack, exec, ← a3]
          · have : xs.length ≠ 0 := by simpa using hxs
            simp [resetStack, exec, this, a1]
        rw [er]
        simp only []
        refine ⟨_, _, rfl, a4, a1, a2, hroom, ⟨rfl, rfl, ?_⟩, ok2.unlink (me := me) ?_⟩
        case refine_2 =>
          rw [a3]
          by_cases hxs : xs = []
          · rw [if_pos hxs]; exact .inl rfl
          · rw [if_neg hxs]; exact .inr ⟨rfl, a1⟩
        intro y hy c v hcy hr
        obtain ⟨i, hi⟩ := List.mem_iff_getElem?.1 hy
        obtain ⟨c', hc', hr'⟩ := a5 i y c v hi hcy hr
        refine ⟨c', ?_, hr'⟩
        show l3.temps y = _
        rw [r3 i y hi, Nat.zero_add]; exact hc'

end CGen
