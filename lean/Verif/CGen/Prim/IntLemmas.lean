import Verif.CGen.Prim.IntSpec
import Verif.CGen.Sim
import Verif.Int63.Props
import Verif.Int63.PropsWide
import Verif.Wasm.GenPrim

/-!
# Lemmas about the integer primitives of the C backend
-/

namespace CGen.Prim

open ANF
open Uint63 (word boolWord cmpWord)

variable {G : HeapI} {S : Sig} {B : Defs} {penv : Tag → Option IntOp}

theorem word_toNat {n : Nat} (h : n < 2 ^ 63) : (word n).toNat = 2 * n + 1 := by
  unfold word; rw [BitVec.toNat_ofNat, Nat.mod_eq_of_lt (by omega)]

theorem ofWord_word {n : Nat} (h : n < 2 ^ 63) : ofWord (word n) = .int (n * 2 + 1) := by
  unfold ofWord; rw [word_toNat h]; push_cast; rw [Int.mul_comm]

theorem toWord_nat {k : Nat} (h : k < 2 ^ 64) : toWord (.int k) = some (BitVec.ofNat 64 k) := by
  show (if k < 2 ^ 64 then some (BitVec.ofNat 64 k) else none) = _
  rw [if_pos h]

theorem toWord_int {n : Nat} (h : n < 2 ^ 63) : toWord (.int (n * 2 + 1)) = some (word n) := by
  have e : ((n : Int) * 2 + 1) = ((2 * n + 1 : Nat) : Int) := by push_cast; rw [Int.mul_comm]
  rw [e, toWord_nat (by omega), word]

/-- Representations of integers are their words. -/
theorem toWords_rep {cenv mem lo hi} : ∀ {vs : List Val} {cs : List CVal} {ns : List Nat}, asPrims vs = some (ns.map .int) →
    cs.length = vs.length → (∀ n ∈ ns, n < 2 ^ 63) →
    (∀ (i : Nat) w c, vs[i]? = some w → cs[i]? = some c → VRep G cenv B mem lo hi w c) → toWords cs = some (ns.map word)
  | [], cs, ns, h, hl, _, _ => by
    cases cs with
    | cons => simp at hl
    | nil => cases ns with
      | nil => rfl
      | cons => simp [asPrims] at h
  | v :: vs, cs, ns, h, hl, hn, hr => by
    cases cs with
    | nil => simp at hl
    | cons c cs =>
    cases v with
    | constr => simp [asPrims] at h
    | fn => simp [asPrims] at h
    | prim p =>
      simp only [asPrims] at h
      rcases hq : asPrims vs with _ | qs
      · simp [hq] at h
      cases ns with
      | nil => simp [hq] at h
      | cons n ns =>
        simp only [hq, Option.map_some, List.map_cons, Option.some.injEq, List.cons.injEq] at h
        obtain ⟨rfl, rfl⟩ := h
        have h0 := hr 0 _ _ rfl rfl
        cases h0
        have ih := toWords_rep (cs := cs) (ns := ns) hq (by simpa using hl) (fun m hm => hn m (List.mem_cons_of_mem _ hm))
          (fun i w c hw hc => hr (i + 1) w c (by simpa using hw) (by simpa using hc))
        simp only [toWords, toWord_int (hn n (by simp)), ih, List.map_cons]

/-- The word of a result that is no block. -/
def resWord : Wasm.PRes → Int63.W
  | .int n => word n
  | .bool b => boolWord b
  | .cmp c => cmpWord c
  | _ => 0

theorem compares_eq {x y : Nat} (h : x < 2 ^ 62 ↔ y < 2 ^ 62) :
    Uint63.compareInt (Uint63.toSigned x) (Uint63.toSigned y) = Uint63.compareInt x y := by
  unfold Uint63.compareInt Uint63.toSigned
  by_cases hx : x < 2 ^ 62
  · rw [if_pos hx, if_pos (h.1 hx)]
  · rw [if_neg hx, if_neg (mt h.2 hx)]
    by_cases e : (x : Int) = y
    · rw [if_pos e, if_pos (by omega)]
    · rw [if_neg e, if_neg (by omega)]
      by_cases e' : (x : Int) < y
      · rw [if_pos e', if_pos (by omega)]
      · rw [if_neg e', if_neg (by omega)]

/-- On safe operands the functions without thread information compute what the operation means. -/
theorem pure_means {op : IntOp} {ns : List Nat} {r : Wasm.PRes} (ht : tinfo op = false) (hn : ∀ n ∈ ns, n < 2 ^ 63)
    (hM : Means op ns r) (hs : Safe op ns) :
    pureFun (cfun op) (ns.map word) = some (resWord r) ∧ ∀ c, r ≠ .carry c ∧ ∀ p, r ≠ .pair p := by
  cases op with
  | u op =>
    cases op with
    | add =>
      match ns, hM with
      | [x, y], hM =>
        have hx := hn x (by simp)
        have hy := hn y (by simp)
        simp only [Means, Wasm.Means] at hM; subst hM
        exact ⟨congrArg some (Int63.C01_add hx hy), fun c => ⟨nofun, fun p => nofun⟩⟩
    | sub =>
      match ns, hM with
      | [x, y], hM =>
        have hx := hn x (by simp)
        have hy := hn y (by simp)
        simp only [Means, Wasm.Means] at hM; subst hM
        exact ⟨congrArg some (Int63.C01_sub hx hy), fun c => ⟨nofun, fun p => nofun⟩⟩
    | mul =>
      match ns, hM with
      | [x, y], hM =>
        have hx := hn x (by simp)
        have hy := hn y (by simp)
        simp only [Means, Wasm.Means] at hM; subst hM
        exact ⟨congrArg some (Int63.C01_mul hx hy), fun c => ⟨nofun, fun p => nofun⟩⟩
    | div =>
      match ns, hM with
      | [x, y], hM =>
        have hx := hn x (by simp)
        have hy := hn y (by simp)
        simp only [Means, Wasm.Means] at hM; subst hM
        exact ⟨Int63.C02_div hx hy, fun c => ⟨nofun, fun p => nofun⟩⟩
    | mod =>
      match ns, hM with
      | [x, y], hM =>
        have hx := hn x (by simp)
        have hy := hn y (by simp)
        simp only [Means, Wasm.Means] at hM; subst hM
        exact ⟨Int63.C02_mod hx hy, fun c => ⟨nofun, fun p => nofun⟩⟩
    | lsl =>
      match ns, hM with
      | [x, y], hM =>
        have hx := hn x (by simp)
        have hy := hn y (by simp)
        simp only [Means, Wasm.Means] at hM; subst hM
        exact ⟨Int63.C03_lsl hx hy, fun c => ⟨nofun, fun p => nofun⟩⟩
    | lsr =>
      match ns, hM with
      | [x, y], hM =>
        have hx := hn x (by simp)
        have hy := hn y (by simp)
        simp only [Means, Wasm.Means] at hM; subst hM
        exact ⟨Int63.C03_lsr hx hy, fun c => ⟨nofun, fun p => nofun⟩⟩
    | land =>
      match ns, hM with
      | [x, y], hM =>
        have hx := hn x (by simp)
        have hy := hn y (by simp)
        simp only [Means, Wasm.Means] at hM; subst hM
        exact ⟨congrArg some (Int63.C03_land hx hy), fun c => ⟨nofun, fun p => nofun⟩⟩
    | lor =>
      match ns, hM with
      | [x, y], hM =>
        have hx := hn x (by simp)
        have hy := hn y (by simp)
        simp only [Means, Wasm.Means] at hM; subst hM
        exact ⟨congrArg some (Int63.C03_lor hx hy), fun c => ⟨nofun, fun p => nofun⟩⟩
    | lxor =>
      match ns, hM with
      | [x, y], hM =>
        have hx := hn x (by simp)
        have hy := hn y (by simp)
        simp only [Means, Wasm.Means] at hM; subst hM
        exact ⟨congrArg some (Int63.C03_lxor hx hy), fun c => ⟨nofun, fun p => nofun⟩⟩
    | eqb =>
      match ns, hM with
      | [x, y], hM =>
        have hx := hn x (by simp)
        have hy := hn y (by simp)
        simp only [Means, Wasm.Means] at hM; subst hM
        exact ⟨congrArg some (Int63.C04_eqb hx hy), fun c => ⟨nofun, fun p => nofun⟩⟩
    | ltb =>
      match ns, hM with
      | [x, y], hM =>
        have hx := hn x (by simp)
        have hy := hn y (by simp)
        simp only [Means, Wasm.Means] at hM; subst hM
        exact ⟨congrArg some (Int63.C04_ltb_partial hx hy hs), fun c => ⟨nofun, fun p => nofun⟩⟩
    | leb =>
      match ns, hM with
      | [x, y], hM =>
        have hx := hn x (by simp)
        have hy := hn y (by simp)
        simp only [Means, Wasm.Means] at hM; subst hM
        exact ⟨congrArg some (Int63.C04_leb_partial hx hy hs), fun c => ⟨nofun, fun p => nofun⟩⟩
    | compare =>
      match ns, hM with
      | [x, y], hM =>
        have hx := hn x (by simp)
        have hy := hn y (by simp)
        simp only [Means, Wasm.Means] at hM; subst hM
        exact ⟨Int63.C04_compare hx hy, fun c => ⟨nofun, fun p => nofun⟩⟩
    | head0 =>
      match ns, hM with
      | [x], hM =>
        simp only [Means, Wasm.Means] at hM; obtain ⟨n, hU, rfl⟩ := hM
        obtain ⟨k, h1, h2⟩ := Int63.C08_head0 (hn x (by simp))
        rw [Wasm.head0_unique hU h2]
        exact ⟨congrArg some h1, fun c => ⟨nofun, fun p => nofun⟩⟩
    | tail0 =>
      match ns, hM with
      | [x], hM =>
        simp only [Means, Wasm.Means] at hM; obtain ⟨n, hU, rfl⟩ := hM
        obtain ⟨k, h1, h2⟩ := Int63.C08_tail0 (hn x (by simp))
        rw [Wasm.tail0_unique hU h2]
        exact ⟨congrArg some h1, fun c => ⟨nofun, fun p => nofun⟩⟩
    | addmuldiv =>
      match ns, hM with
      | [x, y, z], hM =>
        simp only [Means, Wasm.Means] at hM; subst hM
        exact ⟨Int63.C07_addmuldiv (hn x (by simp)) (hn y (by simp)) (hn z (by simp)), fun c => ⟨nofun, fun p => nofun⟩⟩
    | _ => cases ht
  | divs =>
    match ns, hM with
    | [x, y], hM =>
      have hx := hn x (by simp)
      have hy := hn y (by simp)
      simp only [Means] at hM; subst hM
      exact ⟨Int63.C05_divs hx hy, fun c => ⟨nofun, fun p => nofun⟩⟩
  | mods =>
    match ns, hM with
    | [x, y], hM =>
      simp only [Means] at hM; subst hM
      exact ⟨Int63.C05_mods_partial hs.1 hs.2, fun c => ⟨nofun, fun p => nofun⟩⟩
  | asr =>
    match ns, hM with
    | [x, y], hM =>
      simp only [Means] at hM; obtain ⟨hy, rfl⟩ := hM
      exact ⟨Int63.C05_asr_partial hs hy, fun c => ⟨nofun, fun p => nofun⟩⟩
  | lesb =>
    match ns, hM with
    | [x, y], hM =>
      simp only [Means] at hM; subst hM
      exact ⟨congrArg some (Int63.C05_lesb (hn x (by simp)) (hn y (by simp))), fun c => ⟨nofun, fun p => nofun⟩⟩
  | ltsb =>
    match ns, hM with
    | [x, y], hM =>
      simp only [Means] at hM; subst hM
      exact ⟨congrArg some (Int63.C05_ltsb (hn x (by simp)) (hn y (by simp))), fun c => ⟨nofun, fun p => nofun⟩⟩
  | compares =>
    match ns, hM with
    | [x, y], hM =>
      simp only [Means] at hM; subst hM
      refine ⟨?_, fun c => ⟨nofun, fun p => nofun⟩⟩
      rw [compares_eq hs]
      exact Int63.C04_compare (hn x (by simp)) (hn y (by simp))

/-- The word of a result represents it. -/
theorem encodes_rep {cenv mem lo hi} {r : Wasm.PRes} {v : FO} (he : Wasm.Encodes cenv r v)
    (hr : ∀ c, r ≠ .carry c ∧ ∀ p, r ≠ .pair p) : VRep G cenv B mem lo hi v.toVal (ofWord (resWord r)) := by
  cases r with
  | int n =>
    obtain ⟨hn, rfl⟩ := he
    rw [resWord, ofWord_word hn]
    exact .int
  | bool b =>
    obtain ⟨t, ⟨i, h1, h2, h3⟩, rfl⟩ := he
    have : ofWord (resWord (.bool b)) = .int (2 * i.ordinal + 1) := by
      rw [h3]; cases b <;> decide
    rw [this]; exact .enum h1 h2
  | cmp c =>
    obtain ⟨t, ⟨i, h1, h2, h3⟩, rfl⟩ := he
    have : ofWord (resWord (.cmp c)) = .int (2 * i.ordinal + 1) := by
      rw [h3]; cases c <;> decide
    rw [this]; exact .enum h1 h2
  | carry c => exact absurd rfl (hr c).1
  | pair p => exact absurd rfl ((hr (.C0 0)).2 p)

/-- A block that is stored represents the constructor it stands for. -/
theorem store_rep (hG : G.Laws S.cenv B) {t : Tag} {i : Ctor.Info} {vs : List Val} {cs : List CVal} {h : Th} {d hd : Nat}
    (hi : S.cenv t = some i) (ha : i.arity = vs.length) (hl : cs.length = vs.length) (hp : cs ≠ []) (ho : i.ordinal < 251)
    (hh : hd = cs.length * 1024 + i.ordinal) (hroom : h.alloc + (cs.length + 1) ≤ h.limit) (ok : h.Ok G S.cenv B)
    (hv : ∀ (k : Nat) v c, vs[k]? = some v → cs[k]? = some c → h.Rep G S.cenv B v c) :
    ∃ c h', store hd cs h = .ret c h' ∧ h'.Rep G S.cenv B (.constr t vs) c ∧ Keeps G S.cenv B d h h' ∧
      h'.alloc = h.alloc + (cs.length + 1) ∧ h'.limit = h.limit ∧ h'.fp = h.fp ∧ h'.frames = h.frames ∧ h'.Ok G S.cenv B := by
  unfold store
  rw [if_pos hroom]
  refine ⟨_, _, rfl, ?_⟩
  set mem' : Nat → Option CVal := fun a => if a = h.alloc then some (.int hd)
        else if h.alloc < a ∧ a < h.alloc + (cs.length + 1) then cs[a - (h.alloc + 1)]? else h.mem a with hm
  have hpos : 0 < cs.length := List.length_pos_iff.2 hp
  have e0 : mem' h.alloc = some (.int (cs.length * 1024 + i.ordinal)) := by
    rw [hm]; simp only [if_true, hh]; push_cast; rfl
  have e1 : ∀ (k : Nat) c, cs[k]? = some c → mem' (h.alloc + 1 + k) = some c := by
    intro k c hc
    have hk : k < cs.length := by rw [List.getElem?_eq_some_iff] at hc; exact hc.1
    rw [hm]; simp only
    rw [if_neg (by omega), if_pos (by omega), show h.alloc + 1 + k - (h.alloc + 1) = k by omega]; exact hc
  have e2 : ∀ a, a < h.alloc ∨ h.alloc + (cs.length + 1) ≤ a → mem' a = h.mem a := by
    intro a ha'
    rw [hm]; simp only
    rw [if_neg (by omega), if_neg (by omega)]
  obtain ⟨g1, g2, g3⟩ := hG h.mem mem' h.alloc h.limit cs i.ordinal ok.heap hp ho hroom (fun c hc => by
    obtain ⟨k, hk⟩ := List.getElem?_of_mem hc
    have hkl : k < vs.length := by rw [← hl]; rw [List.getElem?_eq_some_iff] at hk; exact hk.1
    exact ⟨vs[k], hv k _ c (List.getElem?_eq_getElem hkl) hk⟩) e0 e1 e2
  have hrep : ∀ v c, h.Rep G S.cenv B v c →
      VRep G S.cenv B mem' (h.alloc + (cs.length + 1)) h.limit v c := fun v c hr =>
    VRep.mono (by omega) (Nat.le_refl _) (fun a ha' => e2 a (by omega)) g3 hr
  refine ⟨?_, Keeps.of_frames rfl (fun _ _ => rfl) hrep, rfl, rfl, rfl, rfl, ok.grow g1 hrep rfl rfl⟩
  refine .boxed hi ha (by omega) ⟨by omega, .inl (by show _ ≤ h.alloc + (cs.length + 1); omega)⟩ ?_ hl e1
    (fun k v c hvk hck => hrep v c (hv k v c hvk hck)) g2
  rw [show h.alloc + 1 - 1 = h.alloc by omega, ha, ← hl]; exact e0

/-- `mk_C0` and `mk_C1` build the constructor, or the process is aborted by the collector. -/
theorem mkCarry_rep {W : World} (hW : GcOk G S.cenv B W) (hC : CtorsOk S.cenv) (hG : G.Laws S.cenv B) {t : Tag} {i : Ctor.Info} {n : Nat}
    {h : Th} {d hd : Nat} (hi : S.cenv t = some i) (ha : i.arity = 1) (hh : hd = 1024 + i.ordinal) (hn : n < 2 ^ 63)
    (ok : h.Ok G S.cenv B) (hb : Below d h) :
    mkCarry W.gc hd (ofWord (word n)) h = .abort ∨ ∃ c h', mkCarry W.gc hd (ofWord (word n)) h = .ret c h' ∧
      h'.Rep G S.cenv B (.constr t [.prim (.int n)]) c ∧ Keeps G S.cenv B d h h' ∧ h'.alloc ≤ h'.limit ∧ h'.Ok G S.cenv B := by
  have ho : i.ordinal < 251 := hC.small t i hi (by omega)
  have fin : ∀ h1 : Th, h1.Ok G S.cenv B → h1.alloc + 2 ≤ h1.limit →
      ∃ c h', store hd [ofWord (word n)] h1 = .ret c h' ∧ h'.Rep G S.cenv B (.constr t [.prim (.int n)]) c ∧
        Keeps G S.cenv B d h1 h' ∧ h'.alloc ≤ h'.limit ∧ h'.Ok G S.cenv B := by
    intro h1 ok1 hroom
    obtain ⟨c, h', a1, a2, a3, a4, a5, _, _, a6⟩ := store_rep (d := d) (hd := hd) (cs := [ofWord (word n)])
      (vs := [.prim (.int n)]) hG hi (by simpa using ha) rfl (by simp) ho (by rw [hh]; simp) (by simpa using hroom) ok1
      (fun k v c hv hc => by
        cases k with
        | zero =>
          simp only [List.getElem?_cons_zero, Option.some.injEq] at hv hc
          subst hv; subst hc
          rw [ofWord_word hn]; exact .int
        | succ k => simp at hv)
    exact ⟨c, h', a1, a2, a3, by rw [a4, a5]; simpa using hroom, a6⟩
  unfold mkCarry
  by_cases hroom : h.alloc + 2 ≤ h.limit
  · rw [if_pos hroom]; exact .inr (fin h ok hroom)
  · rw [if_neg hroom]
    have ok2 : ({ h with nalloc := 2 } : Th).Ok G S.cenv B := ok.nalloc
    rcases hW.keeps hC ok2 d with e | ⟨h1, e, k1, room, ok1⟩
    · left; simp only [e]
    · obtain ⟨c, h', a1, a2, a3, a4, a5⟩ := fin h1 ok1 room
      right
      simp only [e]
      refine ⟨c, h', a1, a2, ?_, a4, a5⟩
      have k0 : Keeps G S.cenv B d h ({ h with nalloc := 2 } : Th) := Keeps.of_frames rfl (fun _ _ => rfl) (fun _ _ hr => hr)
      have hb2 := k0.below hb
      exact (k0.trans hb k1).trans hb a3

/-- A pair is stored if there are three words for it. -/
theorem mkPair_rep (hG : G.Laws S.cenv B) {t : Tag} {n k : Nat} {h : Th} {d : Nat} (hi : Wasm.HasCtor S.cenv t 2 0)
    (hn : n < 2 ^ 63) (hk : k < 2 ^ 63) (ok : h.Ok G S.cenv B) (hroom : h.alloc + 3 ≤ h.limit) :
    ∃ c h', mkPair (word n, word k) h = .ret c h' ∧ h'.Rep G S.cenv B (.constr t [.prim (.int n), .prim (.int k)]) c ∧
      Keeps G S.cenv B d h h' ∧ h'.alloc = h.alloc + 3 ∧ h'.limit = h.limit ∧ h'.Ok G S.cenv B := by
  obtain ⟨i, h1, h2, h3⟩ := hi
  obtain ⟨c, h', a1, a2, a3, a4, a5, _, _, a6⟩ := store_rep (d := d) (hd := 2048) (cs := [ofWord (word n), ofWord (word k)])
      (vs := [.prim (.int n), .prim (.int k)]) hG h1 (by simpa using h2) rfl (by simp) (by omega) (by rw [h3]; simp)
      (by simpa using hroom) ok
      (fun j v c hv hc => by
        match j with
        | 0 =>
          simp only [List.getElem?_cons_zero, Option.some.injEq] at hv hc
          subst hv; subst hc
          rw [ofWord_word hn]; exact .int
        | 1 =>
          simp only [List.getElem?_cons_succ, List.getElem?_cons_zero, Option.some.injEq] at hv hc
          subst hv; subst hc
          rw [ofWord_word hk]; exact .int
        | j + 2 => simp at hv)
  exact ⟨c, h', a1, a2, a3, a4, a5, a6⟩

theorem op_inv (hS : SafeSig S penv) {p : Tag} {vs : List Val} {v : Val} (h : S.op p vs = some v) :
    ∃ op ns r w, penv p = some op ∧ asPrims vs = some (ns.map .int) ∧ (∀ n ∈ ns, n < 2 ^ 63) ∧ Means op ns r ∧
      Wasm.Encodes S.cenv r w ∧ Safe op ns ∧ v = w.toVal := by
  unfold Sig.op at h
  split at h
  · rename_i ps hps
    rcases hw : S.prims p ps with _ | w
    · simp [hw] at h
    · simp only [hw, Option.map_some, Option.some.injEq] at h
      obtain ⟨op, ns, r, h1, h2, h3, h4, h5, h6⟩ := hS p ps w hw
      exact ⟨op, ns, r, w, h1, by rw [hps, h2], h3, h4, h5, h6, h.symm⟩
  · cases h

/-- On safe operands the functions with thread information build what the operation means. -/
theorem alloc_means {W : World} (hW : GcOk G S.cenv B W) (hC : CtorsOk S.cenv) (hG : G.Laws S.cenv B) {op : IntOp} {ns : List Nat}
    {r : Wasm.PRes} {v : FO} {h : Th} {d : Nat} (ht : tinfo op = true) (hn : ∀ n ∈ ns, n < 2 ^ 63) (hM : Means op ns r)
    (hs : Safe op ns) (he : Wasm.Encodes S.cenv r v) (ok : h.Ok G S.cenv B) (hb : Below d h) :
    allocFun W.gc (cfun op) (ns.map word) h = .abort ∨ ∃ c h', allocFun W.gc (cfun op) (ns.map word) h = .ret c h' ∧
      h'.Rep G S.cenv B v.toVal c ∧ Keeps G S.cenv B d h h' ∧ h'.alloc ≤ h'.limit ∧ h'.Ok G S.cenv B := by
  have carry : ∀ c, r = .carry c → mkCarryRes W.gc (Int63.carryWord c) h = .abort ∨
      ∃ c' h', mkCarryRes W.gc (Int63.carryWord c) h = .ret c' h' ∧ h'.Rep G S.cenv B v.toVal c' ∧ Keeps G S.cenv B d h h' ∧
        h'.alloc ≤ h'.limit ∧ h'.Ok G S.cenv B := by
    intro c hr
    subst hr
    cases c with
    | C0 n =>
      obtain ⟨t, ⟨i, h1, h2, h3⟩, h4, rfl⟩ := he
      exact mkCarry_rep hW hC hG h1 h2 (by rw [h3]) h4 ok hb
    | C1 n =>
      obtain ⟨t, ⟨i, h1, h2, h3⟩, h4, rfl⟩ := he
      exact mkCarry_rep hW hC hG h1 h2 (by rw [h3]) h4 ok hb
  cases op with
  | u op =>
    cases op with
    | addc =>
      match ns, hM with
      | [x, y], hM =>
        have hx := hn x (by simp)
        have hy := hn y (by simp)
        simp only [Means, Wasm.Means] at hM
        have := carry _ hM
        rw [← Int63.C06_addc_partial hs] at this
        exact this
    | addcarryc =>
      match ns, hM with
      | [x, y], hM =>
        have hx := hn x (by simp)
        have hy := hn y (by simp)
        simp only [Means, Wasm.Means] at hM
        have := carry _ hM
        rw [← Int63.C06_addcarryc_partial (Nat.lt_trans hs.1 hs.2) hs.1 hs.2] at this
        exact this
    | subc =>
      match ns, hM with
      | [x, y], hM =>
        have hx := hn x (by simp)
        have hy := hn y (by simp)
        simp only [Means, Wasm.Means] at hM
        have := carry _ hM
        rw [← Int63.C06_subc_partial hx hy hs] at this
        exact this
    | subcarryc =>
      match ns, hM with
      | [x, y], hM =>
        have hx := hn x (by simp)
        have hy := hn y (by simp)
        simp only [Means, Wasm.Means] at hM
        have := carry _ hM
        rw [← Int63.C06_subcarryc_partial hx hy hs] at this
        exact this
    | mulc => exact hs.elim
    | diveucl => exact hs.elim
    | diveucl21 => exact hs.elim
    | _ => cases ht
  | _ => cases ht

end CGen.Prim
