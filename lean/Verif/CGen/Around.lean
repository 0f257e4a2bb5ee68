import Verif.CGen.Exec

/-! # Calls in the middle of a function: saving, collecting, restoring -/

namespace CGen

open ANF

variable {G : HeapI} {cenv : Ctor.PMap Ctor.Info} {B : Defs} {W : World} {call : Nat → Var → List CVal → Th → Out} {me : Nat}

/-- The state with the registers saved. -/
def Th.sync (h : Th) (l : Loc) : Th := { h with alloc := l.alloc, limit := l.limit }

/-- What the C code has to do for a given result of the source program: return a representation of the value, keeping the
callers' roots; run out of the same call depth; or be aborted by the collector. -/
def Sim (G : HeapI) (cenv : Ctor.PMap Ctor.Info) (B : Defs) (d : Nat) (h : Th) : Res → Out → Prop
  | .val v, o => o = .abort ∨ ∃ c h', o = .ret c h' ∧ h'.Rep G cenv B v c ∧ Keeps G cenv B d h h' ∧ h'.alloc ≤ h'.limit ∧
      h'.Ok G cenv B
  | .oot, o => o = .abort ∨ o = .oot
  | .stuck, _ => True

theorem Sim.pre {d h h1 r o} (hb : Below d h) (hk : Keeps G cenv B d h h1) (hs : Sim G cenv B d h1 r o) : Sim G cenv B d h r o := by
  cases r with
  | val v =>
    rcases hs with hs | ⟨c, h', e, hr, hk', hle⟩
    · exact .inl hs
    · exact .inr ⟨c, h', e, hr, hk.trans hb hk', hle⟩
  | oot => exact hs
  | stuck => trivial

/-- Writing slots above those saved before. -/
theorem Keeps.write {h1 h2 h3 : Th} (hk : Keeps G cenv B (me + 1) h1 h2) (hfp : h3.fp = h2.fp)
    (ho : ∀ k, k ≠ me → h3.frames k = h2.frames k) (hs : (h3.frames me).size = (h2.frames me).size)
    (hp : (h3.frames me).prev = (h2.frames me).prev) (hn : (h1.frames me).next ≤ (h3.frames me).next)
    (hr : ∀ i, i < (h1.frames me).next → (h3.frames me).roots i = (h2.frames me).roots i)
    (hrep : ∀ v c, h2.Rep G cenv B v c → h3.Rep G cenv B v c) : Keeps G cenv B (me + 1) h1 h3 := by
  refine ⟨hfp.trans hk.fp, ?_, ?_, ?_, ?_⟩
  · intro k hkd
    by_cases e : k = me
    · subst e; rw [hs]; exact hk.size k hkd
    · rw [ho k e]; exact hk.size k hkd
  · intro k hkd
    by_cases e : k = me
    · subst e; exact hn
    · rw [ho k e]; exact hk.next k hkd
  · intro k hkd
    by_cases e : k = me
    · subst e; rw [hp]; exact hk.prev k hkd
    · rw [ho k e]; exact hk.prev k hkd
  · intro k hkd hch i hi c v hc hv
    obtain ⟨c', hc', hv'⟩ := hk.roots k hkd hch i hi c v hc hv
    refine ⟨c', ?_, hrep v c' hv'⟩
    by_cases e : k = me
    · subst e; rw [hr i hi]; exact hc'
    · rw [ho k e]; exact hc'

/-- A collection after a call with live variables: the frame is linked, the result is saved above them. -/
theorem exec_gcCall_linked (hc : CtorsOk cenv) (hW : GcOk G cenv B W) (n : Nat) (xs : List Var) (hnd : xs.Nodup) (off : Nat)
    (hoff : off ≠ 0) (l : Loc) (h1 h2 : Th) (hb1 : Below (me + 1) h1) (hm : OnChain h1 me)
    (hnx : (h1.frames me).next = off) (hk : Keeps G cenv B (me + 1) h1 h2)
    (hx : ∀ x ∈ xs, ∃ c v, l.temps x = some c ∧ h2.Rep G cenv B v c) (hs : n ≠ 0 → off + xs.length ≤ (h2.frames me).size)
    (hla : l.alloc = h2.alloc) (hll : l.limit = h2.limit) (hle : h2.alloc ≤ h2.limit) (ok : h2.Ok G cenv B) :
    exec W call me (gcCall n xs off).1 l h2 = .abort ∨
    ∃ l' h', exec W call me (gcCall n xs off).1 l h2 = .norm l' h' ∧ Keeps G cenv B (me + 1) h1 h' ∧
      h'.alloc + n ≤ h'.limit ∧ Restored G cenv B xs l l' h2 h' ∧ (∀ y, y ∉ xs → l'.temps y = l.temps y) ∧
      h'.Ok G cenv B := by
  unfold gcCall
  by_cases hn : n = 0
  · rw [if_pos hn]
    exact .inr ⟨l, h2, exec_skip, hk, by omega, ⟨hla, hll, fun y _ c v hc hr => ⟨c, hc, hr⟩⟩, fun _ _ => rfl, ok⟩
  · rw [if_neg hn]
    simp only [exec]
    by_cases hlow : (n : Int) ≤ (l.limit : Int) - l.alloc
    · rw [if_pos hlow]
      exact .inr ⟨l, h2, rfl, hk, by omega, ⟨hla, hll, fun y _ c v hc hr => ⟨c, hc, hr⟩⟩, fun _ _ => rfl, ok⟩
    · rw [if_neg hlow]
      obtain ⟨h3, he, sb, hr, hlowr⟩ := exec_pushAux (W := W) (call := call) (me := me) xs off .skip l h2
        (fun x hm => by obtain ⟨c, v, e, _⟩ := hx x hm; exact ⟨c, e⟩) (hs hn)
      rw [exec_skip] at he
      have hsp : (pushVars off xs).2 = off + xs.length := by rw [pushVars, pushAux_snd]
      rw [hsp, show (pushVars off xs).1 = (pushAux xs off .skip).1 from rfl, he]
      simp only []
      have eu : exec W call me (updateStack (off + xs.length)) l h3 =
          .norm l (h3.setFrame me { h3.frames me with next := off + xs.length }) := by
        simp [updateStack, hoff, exec]
      rw [eu]
      simp only []
      have es : ∀ l h, exec W call me (setStack (off + xs.length) (decide (off ≠ 0))) l h = .norm l h := by
        intro l h; simp [setStack, hoff, exec]
      have er : ∀ l h, exec W call me (resetStack (off + xs.length) (decide (off ≠ 0))) l h = .norm l h := by
        intro l h; simp [resetStack, hoff, exec]
      rw [es]
      simp only []
      generalize hh4 : ({ h3.setFrame me { h3.frames me with next := off + xs.length } with nalloc := n } : Th) = h4
      have hk4 : Keeps G cenv B (me + 1) h1 h4 := by
        subst hh4
        refine hk.write sb.fp ?_ ?_ ?_ ?_ ?_ ?_
        · intro k hk; simp [Th.setFrame, hk, sb.other k hk]
        · simp [Th.setFrame, sb.size]
        · simp [Th.setFrame, sb.prev]
        · simp [Th.setFrame, hnx]
        · intro i hi; simp only [Th.setFrame, if_true]; exact hlowr i (by omega)
        · intro v c hv; simp only [Th.Rep, Th.setFrame, sb.mem, sb.alloc, sb.limit]; exact hv
      have hr4 : ∀ v c, h2.Rep G cenv B v c → h4.Rep G cenv B v c := by
        subst hh4
        intro v c hv; simp only [Th.Rep, Th.setFrame, sb.mem, sb.alloc, sb.limit]; exact hv
      have hroot4 : ∀ (i : Nat) x, xs[i]? = some x → (h4.frames me).roots (off + i) = l.temps x := by
        subst hh4; intro i x hx; simp only [Th.setFrame, if_true]; exact hr i x hx
      have hnext4 : (h4.frames me).next = off + xs.length := by subst hh4; simp [Th.setFrame]
      have hsize4 : (h4.frames me).size = (h2.frames me).size := by subst hh4; simp [Th.setFrame, sb.size]
      have hna : h4.nalloc = n := by subst hh4; rfl
      have hb2 : Below (me + 1) h2 := hk.below hb1
      have hfp4 : h4.fp = h2.fp := by subst hh4; exact sb.fp
      have hother4 : ∀ k, k ≠ me → h4.frames k = h2.frames k := by
        subst hh4; intro k hk; simp [Th.setFrame, hk, sb.other k hk]
      have hprev4 : (h4.frames me).prev = (h2.frames me).prev := by subst hh4; simp [Th.setFrame, sb.prev]
      have hlow4 : ∀ i, i < off → (h4.frames me).roots i = (h2.frames me).roots i := by
        subst hh4; intro i hi; simp only [Th.setFrame, if_true]; exact hlowr i (by omega)
      have hch4 : ∀ k, OnChain h4 k → OnChain h2 k := by
        intro k hk
        refine OnChain.congr' hfp4 hb2 (fun j _ => ?_) hk
        by_cases e : j = me
        · subst e; exact hprev4
        · rw [hother4 j e]
      have ok4 : h4.Ok G cenv B := by
        refine ⟨by subst hh4; simp only [Th.setFrame, sb.mem, sb.alloc, sb.limit]; exact ok.heap, ?_, ?_, ?_⟩
        · intro k hkc
          by_cases e : k = me
          · subst e; rw [hnext4, hsize4]; exact hs hn
          · rw [hother4 k e]; exact ok.size k (hch4 k hkc)
        · intro k hkc
          by_cases e : k = me
          · subst e; rw [hprev4]; exact ok.down k (hch4 k hkc)
          · rw [hother4 k e]; exact ok.down k (hch4 k hkc)
        · intro k hkc i hi
          by_cases e : k = me
          · subst e
            rw [hnext4] at hi
            by_cases hio : i < off
            · obtain ⟨c, v, g1, g2⟩ := ok.roots k (hch4 k hkc) i (by have := hk.next k (by omega); omega)
              exact ⟨c, v, by rw [hlow4 i hio]; exact g1, hr4 v c g2⟩
            · have hxi := List.getElem?_eq_getElem (l := xs) (i := i - off) (by omega)
              obtain ⟨c, v, g1, g2⟩ := hx _ (List.mem_of_getElem? hxi)
              have := hroot4 _ _ hxi
              rw [show off + (i - off) = i by omega] at this
              exact ⟨c, v, this.trans g1, hr4 v c g2⟩
          · rw [hother4 k e] at hi ⊢
            obtain ⟨c, v, g1, g2⟩ := ok.roots k (hch4 k hkc) i hi
            exact ⟨c, v, g1, hr4 v c g2⟩
      rcases hW.keeps hc ok4 (me + 1) with hg | ⟨h5, hg, hk5, hroom, ok5⟩
      · rw [hg]; exact .inl rfl
      · right
        rw [hg]
        simp only []
        rw [hna] at hroom
        have hm4 : OnChain h4 me := (hk4.chain hb1).2 hm
        have hval : ∀ (i : Nat) x c v, xs[i]? = some x → l.temps x = some c → h2.Rep G cenv B v c →
            ∃ c', (h5.frames me).roots (off + i) = some c' ∧ h5.Rep G cenv B v c' := by
          intro i x c v hxi hcx hv
          refine hk5.roots me (by omega) hm4 (off + i) ?_ c v ((hroot4 i x hxi).trans hcx) (hr4 v c hv)
          have := (List.getElem?_eq_some_iff.mp hxi).1
          omega
        obtain ⟨l6, e6, la6, ll6, r6, o6⟩ := exec_popAux (W := W) (call := call) (me := me) xs off .skip l h5 hnd
          (fun i hi => by
            have hxi := List.getElem?_eq_getElem hi
            obtain ⟨c, v, e, hr⟩ := hx _ (List.mem_of_getElem? hxi)
            obtain ⟨c', hc', _⟩ := hval i _ c v hxi e hr
            exact ⟨c', hc'⟩)
          (by rw [hk5.size me (by omega), hsize4]; exact hs hn)
        rw [exec_skip] at e6
        rw [show popVars off xs = popAux xs off .skip from rfl, e6]
        simp only []
        rw [er]
        simp only []
        refine ⟨_, _, rfl, hk4.trans hb1 hk5, hroom, ⟨rfl, rfl, ?_⟩, o6, ok5⟩
        intro y hy c v hcy hr
        obtain ⟨i, hi⟩ := List.mem_iff_getElem?.1 hy
        obtain ⟨c', hc', hr'⟩ := hval i y c v hi hcy hr
        exact ⟨c', by show l6.temps y = _; rw [r6 i y hi]; exact hc', hr'⟩

theorem gcCall_snd (n : Nat) (xs : List Var) (off : Nat) : (gcCall n xs off).2 = if n = 0 then off else off + xs.length := by
  unfold gcCall
  by_cases h : n = 0
  · simp [h]
  · simp [h, pushVars, pushAux_snd]

/-- The code around a call: registers and live variables are saved, and after the call (and possibly a collection) every
live variable and the result still represent their values, with enough room for what follows. -/
theorem exec_around (hc : CtorsOk cenv) (hW : GcOk G cenv B W) (loc : Finset Var) (x : Var) (e' : Exp) (pre c : CStmt)
    (l l0 : Loc) (h h0 : Th) (hpre : exec W call me pre l h = .norm l0 h0)
    (hb : Below me h0) (hp : (h0.frames me).prev = h0.fp)
    (hvars : ∀ y ∈ (e'.fv ∩ loc).erase x, ∃ cy v, l0.temps y = some cy ∧ (h0.sync l0).Rep G cenv B v cy)
    (hs : (aroundCall loc x e' pre c).2 ≤ (h0.frames me).size) (ok : (h0.sync l0).Ok G cenv B) (r : Res) (o : Th → Out)
    (hcall : ∀ h1, Pushed me (elements ((e'.fv ∩ loc).erase x)) l0 (h0.sync l0) h1 → Below (me + 1) h1 → h1.Ok G cenv B →
      exec W call me c l0 h1 = afterCall l0 x (o h1) ∧ Sim G cenv B (me + 1) h1 r (o h1)) :
    r = .stuck ∨ exec W call me (aroundCall loc x e' pre c).1 l h = .abort ∨
    (r = .oot ∧ exec W call me (aroundCall loc x e' pre c).1 l h = .oot) ∨
    ∃ v l' h', r = .val v ∧ exec W call me (aroundCall loc x e' pre c).1 l h = .norm l' h' ∧
      Keeps G cenv B me (h0.sync l0) h' ∧ (h'.frames me).prev = h'.fp ∧ (h'.frames me).size = (h0.frames me).size ∧
      h'.alloc + maxAllocsE e' ≤ h'.limit ∧ l'.alloc = h'.alloc ∧ l'.limit = h'.limit ∧
      (x ∈ e'.fv ∩ loc → ∃ c', l'.temps x = some c' ∧ h'.Rep G cenv B v c') ∧
      (∀ y ∈ (e'.fv ∩ loc).erase x, ∀ cy w, l0.temps y = some cy → (h0.sync l0).Rep G cenv B w cy →
        ∃ c', l'.temps y = some c' ∧ h'.Rep G cenv B w c') ∧ h'.Ok G cenv B := by
  generalize hfvs : elements ((e'.fv ∩ loc).erase x) = fvs at hcall
  have hmem : ∀ y, y ∈ fvs ↔ y ∈ (e'.fv ∩ loc).erase x := fun y => by rw [← hfvs, mem_elements]
  have hnd : fvs.Nodup := by rw [← hfvs]; exact elements_nodup _
  generalize hgc : (if x ∈ e'.fv ∩ loc then [x] else []) = fvGc
  have hmemg : ∀ y, y ∈ fvGc ↔ y = x ∧ x ∈ e'.fv ∩ loc := by
    intro y; rw [← hgc]; split <;> simp [*]
  have hndg : fvGc.Nodup := by rw [← hgc]; split <;> simp
  have hsp : (pushVars 0 fvs).2 = fvs.length := by rw [pushVars, pushAux_snd, Nat.zero_add]
  have hsize : fvs.length ≤ (h0.frames me).size ∧
      (maxAllocsE e' ≠ 0 → fvs.length + fvGc.length ≤ (h0.frames me).size) := by
    unfold aroundCall at hs
    simp only [hfvs, hgc, hsp, gcCall_snd] at hs
    split at hs
    · exact ⟨hs, fun h => absurd ‹_› h⟩
    · exact ⟨by omega, fun _ => hs⟩
  have hform : (aroundCall loc x e' pre c).1 = .seq pre (.seq .saveAlloc (.seq .saveLimit
      (.seq (.seq (pushVars 0 fvs).1 (.seq (updateStack (pushVars 0 fvs).2) (setStack (pushVars 0 fvs).2 false)))
      (.seq c (.seq .loadAlloc (.seq .loadLimit (.seq (gcCall (maxAllocsE e') fvGc fvs.length).1
        (.seq (popVars 0 fvs) (resetStack fvs.length false))))))))) := by
    unfold aroundCall
    simp only [hfvs, hgc, hsp]
  rw [hform, exec_seq hpre]
  have s1 : exec W call me .saveAlloc l0 h0 = .norm l0 { h0 with alloc := l0.alloc } := by simp only [exec]
  rw [exec_seq s1]
  have s2 : exec W call me .saveLimit l0 { h0 with alloc := l0.alloc } = .norm l0 (h0.sync l0) := by
    simp only [exec, Th.sync]
  rw [exec_seq s2]
  generalize hS : h0.sync l0 = H at hvars hcall ok
  have hbH : Below me H := by
    subst hS
    exact fun k hk => hb k (OnChain.congr' (h := h0) (h' := h0.sync l0) rfl hb (fun _ _ => rfl) hk)
  have hpH : (H.frames me).prev = H.fp := by subst hS; exact hp
  have hsH : (H.frames me).size = (h0.frames me).size := by subst hS; rfl
  obtain ⟨h1, e1, p⟩ := exec_push (W := W) (call := call) (me := me) fvs l0 H
    (fun y hy => by obtain ⟨cy, v, ec, _⟩ := hvars y ((hmem y).1 hy); exact ⟨cy, ec⟩) (by rw [hsH]; exact hsize.1)
  rw [exec_seq e1]
  obtain ⟨hb1, hch1, hme1⟩ := p.chain hbH hpH
  obtain ⟨ec, hsim⟩ := hcall h1 p hb1 (p.ok hbH hpH ok (fun y hy => hvars y ((hmem y).1 hy)) (by rw [hsH]; exact hsize.1))
  cases r with
  | stuck => exact .inl rfl
  | oot =>
    right
    rcases hsim with ho | ho
    · left
      rw [ho] at ec
      exact exec_seq_stop ec (by intro _ _ h; cases h)
    · right; left
      rw [ho] at ec
      exact ⟨rfl, exec_seq_stop ec (by intro _ _ h; cases h)⟩
  | val v =>
    right
    rcases hsim with ho | ⟨cv, h2, ho, hrep, hk2, hle2, ok2⟩
    · left
      rw [ho] at ec
      exact exec_seq_stop ec (by intro _ _ h; cases h)
    · rw [ho] at ec
      rw [exec_seq ec]
      have s3 : exec W call me .loadAlloc (l0.setT x cv) h2 = .norm { l0.setT x cv with alloc := h2.alloc } h2 := by
        simp only [exec]
      rw [exec_seq s3]
      have s4 : exec W call me .loadLimit { l0.setT x cv with alloc := h2.alloc } h2 =
          .norm { l0.setT x cv with alloc := h2.alloc, limit := h2.limit } h2 := by
        simp only [exec]
      rw [exec_seq s4]
      generalize hl2 : ({ l0.setT x cv with alloc := h2.alloc, limit := h2.limit } : Loc) = l2
      have hla2 : l2.alloc = h2.alloc := by rw [← hl2]
      have hll2 : l2.limit = h2.limit := by rw [← hl2]
      have hx2 : l2.temps x = some cv := by rw [← hl2]; simp [Loc.setT]
      have ho2 : ∀ y, y ≠ x → l2.temps y = l0.temps y := by intro y hy; rw [← hl2]; simp [Loc.setT, hy]
      obtain ⟨a1, a2, a3, a4, a5⟩ := p.after hbH hpH hk2
      have hgcx : ∀ y ∈ fvGc, ∃ cy w, l2.temps y = some cy ∧ h2.Rep G cenv B w cy := by
        intro y hy
        obtain ⟨rfl, _⟩ := (hmemg y).1 hy
        exact ⟨cv, v, hx2, hrep⟩
      by_cases hfn : fvs = []
      · -- no live variables besides the result
        rw [hfn]
        simp only [List.length_nil]
        have hfp2 : h2.fp = H.fp := by rw [a3, if_pos hfn]
        have hh2 : ({ h2 with fp := H.fp } : Th) = h2 := by rw [← hfp2]
        rw [hh2] at a4
        have hb2 : Below me h2 := a4.below hbH
        rcases exec_gcCall_zero (call := call) (me := me) hc hW (maxAllocsE e') fvGc hndg l2 h2 hgcx
            (fun hn => by rw [a2, hsH]; have := hsize.2 hn; omega) hb2 (by rw [a1, hfp2]) hla2 hll2 hle2 ok2 with ha | hg
        · left
          exact exec_seq_stop ha (by intro _ _ h; cases h)
        · right; right
          obtain ⟨l3, h3, e3, k3, p3, z3, room3, rest3, ok3⟩ := hg
          rw [exec_seq e3]
          refine ⟨v, l3, h3, rfl, ?_, a4.trans hbH k3, p3, z3.trans (a2.trans hsH), room3, rest3.alloc, rest3.limit, ?_, ?_, ok3⟩
          · simp [popVars, popAux, resetStack, exec]
          · intro hx
            exact rest3.kept x ((hmemg x).2 ⟨rfl, hx⟩) cv v hx2 hrep
          · intro y hy
            have := (hmem y).2 hy
            rw [hfn] at this
            cases this
      · have hlen : fvs.length ≠ 0 := by simpa using hfn
        rcases exec_gcCall_linked (call := call) (me := me) hc hW (maxAllocsE e') fvGc hndg fvs.length hlen l2 h1 h2 hb1
            (hme1 hfn) (p.next hfn) hk2 hgcx (fun hn => by rw [a2, hsH]; exact hsize.2 hn) hla2 hll2 hle2 ok2 with ha | hg
        · left
          exact exec_seq_stop ha (by intro _ _ h; cases h)
        · right; right
          obtain ⟨l3, h3, e3, k3, room3, rest3, oth3, ok3⟩ := hg
          rw [exec_seq e3]
          obtain ⟨b1, b2, b3, b4, b5⟩ := p.after hbH hpH k3
          obtain ⟨l4, e4, la4, ll4, r4, o4⟩ := exec_popAux (W := W) (call := call) (me := me) fvs 0 .skip l3 h3 hnd
            (fun i hi => by
              have hyi := List.getElem?_eq_getElem hi
              obtain ⟨cy, w, ey, hr⟩ := hvars _ ((hmem _).1 (List.mem_of_getElem? hyi))
              obtain ⟨c', hc', _⟩ := b5 i _ cy w hyi ey hr
              exact ⟨c', by simpa using hc'⟩)
            (by rw [b2, hsH]; have := hsize.1; omega)
          rw [exec_skip] at e4
          rw [show popVars 0 fvs = popAux fvs 0 .skip from rfl, exec_seq e4]
          have e5 : exec W call me (resetStack fvs.length false) l4 h3 = .norm l4 { h3 with fp := H.fp } := by
            simp [resetStack, hlen, exec, b1]
          rw [e5]
          refine ⟨v, l4, _, rfl, rfl, b4, b1, b2.trans hsH, room3, la4.trans rest3.alloc, ll4.trans rest3.limit, ?_, ?_,
            ok3.unlink (me := me) (.inr ⟨by rw [b3, if_neg hfn], b1⟩)⟩
          · intro hx
            obtain ⟨c', hc', hr'⟩ := rest3.kept x ((hmemg x).2 ⟨rfl, hx⟩) cv v hx2 hrep
            refine ⟨c', ?_, hr'⟩
            rw [o4 x (fun hm => by have := (hmem x).1 hm; simp at this)]
            exact hc'
          · intro y hy cy w hcy hr
            obtain ⟨i, hi⟩ := List.mem_iff_getElem?.1 ((hmem y).2 hy)
            obtain ⟨c', hc', hr'⟩ := b5 i y cy w hi hcy hr
            refine ⟨c', ?_, hr'⟩
            rw [r4 i y hi, Nat.zero_add]; exact hc'

end CGen
