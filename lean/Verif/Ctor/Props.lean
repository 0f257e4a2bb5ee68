import Verif.Ctor.Lemmas
import Verif.GC.Model

/-!
# C23, C27, C28, C45, C49: constructors, glue code, names, reserved identifiers
-/

namespace Ctor

/-! ## C45 -/

/-- The tag assigned to a declared constructor is above the reserved default tag (hence different from the closure
tag), below the next fresh tag, and carries the constructor's name, arity and ordinal and the tag of its type. -/
theorem C45_info (g : List (Kername × List Ityp)) (hg : (g.map (·.1)).Nodup) (kn : Kername) (k j : Nat) (t : Ityp)
    (c : Cnstr) (hd : Declares g kn k j t c) :
    let r := convertEnv defaultCtorTag defaultIndTag g
    let tag := dconToInfo defaultCtorTag ⟨kn, k, j⟩ r.dcm
    defaultCtorTag < tag ∧ tag ≠ cloTag ∧ tag < r.ncT ∧
    ∃ itag, defaultIndTag < itag ∧ itag ≠ cloIndTag ∧ itag < r.niT ∧
      r.ce tag = some ⟨some c.name, some t.name, itag, c.arity, specOrdinal t.ctors j⟩ ∧
      ∃ l, r.ie itag = some l ∧ l.length = t.ctors.length ∧ l[j]? = some (tag, c.arity) := by
  obtain ⟨p, hp, h1, h2, h3, h4, h5⟩ := convertEnv_spec defaultCtorTag defaultIndTag g hg kn k j t c hd
  simp only [h1]
  have hj := (List.getElem?_eq_some_iff.1 hd.ctor).1
  refine ⟨by omega, by simp only [defaultCtorTag, cloTag]; omega, h2, defaultIndTag + 1 + p, by omega,
    by simp only [defaultIndTag, cloIndTag]; omega, h4, h3, _, h5, by simp, ?_⟩
  rw [List.getElem?_zip_eq_some]
  have := hd.ctor
  refine ⟨by simp [hj], ?_⟩
  rw [List.getElem?_map, this]; rfl

/-- Distinct constructors get distinct tags. -/
theorem C45_injective (g : List (Kername × List Ityp)) (hg : (g.map (·.1)).Nodup) (kn kn' : Kername) (k k' j j' : Nat)
    (t t' : Ityp) (c c' : Cnstr) (hd : Declares g kn k j t c) (hd' : Declares g kn' k' j' t' c')
    (he : dconToInfo defaultCtorTag ⟨kn, k, j⟩ (convertEnv defaultCtorTag defaultIndTag g).dcm =
      dconToInfo defaultCtorTag ⟨kn', k', j'⟩ (convertEnv defaultCtorTag defaultIndTag g).dcm) :
    kn = kn' ∧ k = k' ∧ j = j' := by
  obtain ⟨p, hp, h1, _⟩ := convertEnv_spec defaultCtorTag defaultIndTag g hg kn k j t c hd
  obtain ⟨q, hq, h1', _⟩ := convertEnv_spec defaultCtorTag defaultIndTag g hg kn' k' j' t' c' hd'
  rw [h1, h1'] at he
  have hj := (List.getElem?_eq_some_iff.1 hd.ctor).1
  have hj' := (List.getElem?_eq_some_iff.1 hd'.ctor).1
  rcases Nat.lt_trichotomy p q with h | h | h
  · have := offset_lt _ p q _ hp h
    simp only at this; omega
  · subst h
    rw [hp] at hq
    simp only [Option.some.injEq, Prod.mk.injEq] at hq
    exact ⟨hq.1, hq.2.1, by omega⟩
  · have := offset_lt _ q p _ hq h
    simp only at this; omega

/-- Constructors of different types have different type tags. -/
theorem C45_types (g : List (Kername × List Ityp)) (hg : (g.map (·.1)).Nodup) (kn kn' : Kername) (k k' j j' : Nat)
    (t t' : Ityp) (c c' : Cnstr) (hd : Declares g kn k j t c) (hd' : Declares g kn' k' j' t' c') (i i' : Info)
    (hi : (convertEnv defaultCtorTag defaultIndTag g).ce
      (dconToInfo defaultCtorTag ⟨kn, k, j⟩ (convertEnv defaultCtorTag defaultIndTag g).dcm) = some i)
    (hi' : (convertEnv defaultCtorTag defaultIndTag g).ce
      (dconToInfo defaultCtorTag ⟨kn', k', j'⟩ (convertEnv defaultCtorTag defaultIndTag g).dcm) = some i') :
    i.indTag = i'.indTag ↔ kn = kn' ∧ k = k' := by
  obtain ⟨p, hp, h1, _, h3, _⟩ := convertEnv_spec defaultCtorTag defaultIndTag g hg kn k j t c hd
  obtain ⟨q, hq, h1', _, h3', _⟩ := convertEnv_spec defaultCtorTag defaultIndTag g hg kn' k' j' t' c' hd'
  rw [h1, h3] at hi
  rw [h1', h3'] at hi'
  simp only [Option.some.injEq] at hi hi'
  subst hi hi'
  simp only
  constructor
  · intro h
    have : p = q := by omega
    subst this
    rw [hp] at hq
    simp only [Option.some.injEq, Prod.mk.injEq] at hq
    exact ⟨hq.1, hq.2.1⟩
  · rintro ⟨rfl, rfl⟩
    have hnd := flatEnv_nodup g hg
    have hpl := (List.getElem?_eq_some_iff.1 hp).1
    have : ((flatEnv g).map fun x => (x.1, x.2.1))[p]? = ((flatEnv g).map fun x => (x.1, x.2.1))[q]? := by
      simp [hp, hq]
    have := (List.getElem?_inj (by simpa using hpl) hnd).1 this
    omega

/-- A two-block environment (lists and an enumeration) meets the hypotheses. -/
def demoEnv : List (Kername × List Ityp) :=
  [(⟨.file [['L']], ['l']⟩, [⟨['l'], [⟨['n'], 0⟩, ⟨['c'], 2⟩]⟩]),
   (⟨.file [['B']], ['b']⟩, [⟨['b'], [⟨['t'], 0⟩, ⟨['f'], 0⟩]⟩])]

example : (demoEnv.map (·.1)).Nodup := by decide
example : Declares demoEnv ⟨.file [['B']], ['b']⟩ 0 1 ⟨['b'], [⟨['t'], 0⟩, ⟨['f'], 0⟩]⟩ ⟨['f'], 0⟩ :=
  ⟨⟨[⟨['b'], [⟨['t'], 0⟩, ⟨['f'], 0⟩]⟩], by decide, rfl⟩, rfl⟩
example : (demoEnv.flatMap fun p => (List.range 2).map fun j =>
    dconToInfo 99 ⟨p.1, 0, j⟩ (convertEnv 99 99 demoEnv).dcm) = [100, 101, 102, 103] := by decide

/-! ## C23 -/

/-- The compiler and the glue generator compute the same arities and ordinals (same constructor order). -/
theorem C23_ordinals_agree (g : List (Kername × List Ityp)) (hg : (g.map (·.1)).Nodup) (kn : Kername) (k j : Nat)
    (t : Ityp) (c : Cnstr) (hd : Declares g kn k j t c) :
    let r := convertEnv defaultCtorTag defaultIndTag g
    ∃ i gi, r.ce (dconToInfo defaultCtorTag ⟨kn, k, j⟩ r.dcm) = some i ∧ (processCtors t.ctors)[j]? = some gi ∧
      i.arity = gi.arity ∧ i.ordinal = gi.ordinal ∧ i.name = some gi.name ∧ gi.name = c.name ∧
      i.ordinal = specOrdinal t.ctors j := by
  obtain ⟨_, _, _, itag, _, _, _, h, _⟩ := C45_info g hg kn k j t c hd
  exact ⟨_, _, h, processAux_get 0 0 t.ctors j c hd.ctor, rfl, (ordFrom_zero _ _).symm, rfl, rfl, rfl⟩

/-- The word (no arguments) or block header (arguments) compiled code builds for a declared constructor. -/
theorem compiled_value (g : List (Kername × List Ityp)) (hg : (g.map (·.1)).Nodup) (kn : Kername) (k j : Nat)
    (t : Ityp) (c : Cnstr) (hd : Declares g kn k j t c) (vs : List W) (s : CSt) :
    assignConstructor (convertEnv defaultCtorTag defaultIndTag g).ce
      (dconToInfo defaultCtorTag ⟨kn, k, j⟩ (convertEnv defaultCtorTag defaultIndTag g).dcm) vs s =
    if c.arity = 0 then some (BitVec.ofNat 64 ((specOrdinal t.ctors j <<< 1) + 1), s)
    else some (s.alloc + 8, ⟨assignFields (s.alloc + 8) 0 vs
      (s.mem.put (s.alloc + 8 - 8) (BitVec.ofNat 64 ((c.arity <<< 10) + specOrdinal t.ctors j))),
      s.alloc + 8 * BitVec.ofNat 64 (c.arity + 1)⟩) := by
  obtain ⟨_, _, _, itag, _, _, _, h, _⟩ := C45_info g hg kn k j t c hd
  unfold assignConstructor makeTagZ makeCtorRep
  rw [h]
  by_cases h0 : c.arity = 0 <;> simp [h0]

theorem even_of_align (a : W) (h : a.toNat % 8 = 0) : (a + 8).toNat % 2 = 0 := by
  have h8 : (8 : BitVec 64).toNat = 8 := rfl
  rw [BitVec.toNat_add, h8]; omega

theorem shape_imm (m : WMem) (o : Nat) (h : o < 2 ^ 63) :
    shapeOf m (BitVec.ofNat 64 ((o <<< 1) + 1)) = .imm (BitVec.ofNat 64 (2 * o + 1)) := by
  have e : (o <<< 1) + 1 = 2 * o + 1 := by rw [Nat.shiftLeft_eq]; omega
  unfold shapeOf
  rw [e, if_pos (by rw [BitVec.toNat_ofNat]; omega)]

theorem hdr_read (x : W) (vs : List W) (m : WMem) (h : W) (hl : vs.length < 2 ^ 60) :
    assignFields (x + 8) 0 vs (m.put (x + 8 - 8) h) (x + 8 - 8) = h := by
  rw [fields_other]
  · simp [WMem.put]
  · intro i hi e
    rcases addr_hdr x i (by omega) with h | h
    · rw [Nat.zero_add] at e; exact h e
    · omega

theorem shape_block (x : W) (hx : x.toNat % 8 = 0) (vs : List W) (m : WMem) (a o : Nat) (ho : o < 256)
    (hl : vs.length < 2 ^ 60) :
    shapeOf (assignFields (x + 8) 0 vs (m.put (x + 8 - 8) (BitVec.ofNat 64 ((a <<< 10) + o)))) (x + 8) =
      .block o := by
  have := even_of_align x hx
  unfold shapeOf
  rw [if_neg (by omega), hdr_read _ _ _ _ hl, hdr_mod a o ho]

/-- Values built by compiled code for distinct constructors of one type with at most 256 constructors with arguments
have distinct shapes, whatever the arguments and the states they are built in. -/
theorem C23_distinct_partial (g : List (Kername × List Ityp)) (hg : (g.map (·.1)).Nodup) (kn : Kername)
    (k i j : Nat) (t : Ityp) (c d : Cnstr) (hi : Declares g kn k i t c) (hj : Declares g kn k j t d) (hij : i ≠ j)
    (hbox : boxedCount t.ctors ≤ 256) (hlen : t.ctors.length ≤ 2 ^ 63)
    (vs ws : List W) (s s' : CSt) (hs : s.alloc.toNat % 8 = 0) (hs' : s'.alloc.toNat % 8 = 0)
    (hvs : vs.length = c.arity) (hws : ws.length = d.arity) (hca : c.arity < 2 ^ 54) (hda : d.arity < 2 ^ 54)
    (v w : W) (r r' : CSt)
    (hv : assignConstructor (convertEnv defaultCtorTag defaultIndTag g).ce
      (dconToInfo defaultCtorTag ⟨kn, k, i⟩ (convertEnv defaultCtorTag defaultIndTag g).dcm) vs s = some (v, r))
    (hw : assignConstructor (convertEnv defaultCtorTag defaultIndTag g).ce
      (dconToInfo defaultCtorTag ⟨kn, k, j⟩ (convertEnv defaultCtorTag defaultIndTag g).dcm) ws s' = some (w, r')) :
    shapeOf r.mem v ≠ shapeOf r'.mem w := by
  rw [compiled_value g hg kn k i t c hi] at hv
  rw [compiled_value g hg kn k j t d hj] at hw
  have il := (List.getElem?_eq_some_iff.1 hi.ctor).1
  have jl := (List.getElem?_eq_some_iff.1 hj.ctor).1
  have io := ordFrom_le t.ctors i
  have jo := ordFrom_le t.ctors j
  have hne : ((c.arity = 0) ↔ (d.arity = 0)) → specOrdinal t.ctors i ≠ specOrdinal t.ctors j := by
    intro hk
    rcases Nat.lt_or_gt_of_ne hij with h | h
    · exact Nat.ne_of_lt (specOrdinal_strict _ _ _ _ _ hi.ctor hj.ctor hk h)
    · exact Nat.ne_of_gt (specOrdinal_strict _ _ _ _ _ hj.ctor hi.ctor hk.symm h)
  by_cases hc : c.arity = 0 <;> by_cases hdd : d.arity = 0
  · rw [if_pos hc] at hv; rw [if_pos hdd] at hw
    simp only [Option.some.injEq, Prod.mk.injEq] at hv hw
    obtain ⟨rfl, rfl⟩ := hv
    obtain ⟨rfl, rfl⟩ := hw
    rw [shape_imm _ (specOrdinal t.ctors i) (by omega), shape_imm _ (specOrdinal t.ctors j) (by omega)]
    intro e
    simp only [Shape.imm.injEq] at e
    have e := congrArg BitVec.toNat e
    simp only [BitVec.toNat_ofNat] at e
    exact hne (by simp [hc, hdd]) (by omega)
  · rw [if_pos hc] at hv; rw [if_neg hdd] at hw
    simp only [Option.some.injEq, Prod.mk.injEq] at hv hw
    obtain ⟨rfl, rfl⟩ := hv
    obtain ⟨rfl, rfl⟩ := hw
    have hb := ordFrom_lt_boxed _ _ _ hj.ctor hdd
    rw [shape_imm _ (specOrdinal t.ctors i) (by omega), shape_block s'.alloc hs' ws _ _ (specOrdinal t.ctors j)
      (by omega) (by omega)]
    simp
  · rw [if_neg hc] at hv; rw [if_pos hdd] at hw
    simp only [Option.some.injEq, Prod.mk.injEq] at hv hw
    obtain ⟨rfl, rfl⟩ := hv
    obtain ⟨rfl, rfl⟩ := hw
    have hb := ordFrom_lt_boxed _ _ _ hi.ctor hc
    rw [shape_imm _ (specOrdinal t.ctors j) (by omega), shape_block s.alloc hs vs _ _ (specOrdinal t.ctors i)
      (by omega) (by omega)]
    simp
  · rw [if_neg hc] at hv; rw [if_neg hdd] at hw
    simp only [Option.some.injEq, Prod.mk.injEq] at hv hw
    obtain ⟨rfl, rfl⟩ := hv
    obtain ⟨rfl, rfl⟩ := hw
    have hb := ordFrom_lt_boxed _ _ _ hi.ctor hc
    have hb' := ordFrom_lt_boxed _ _ _ hj.ctor hdd
    rw [shape_block s.alloc hs vs _ _ (specOrdinal t.ctors i) (by omega) (by omega),
      shape_block s'.alloc hs' ws _ _ (specOrdinal t.ctors j) (by omega) (by omega)]
    intro e
    simp only [Shape.block.injEq] at e
    exact hne (by simp [hc, hdd]) e

/-- `n` constructors with one argument each. -/
def manyCtors (n : Nat) : List Cnstr := List.replicate n ⟨['C'], 1⟩

theorem many_get (n i : Nat) (h : i < n) : (manyCtors n)[i]? = some ⟨['C'], 1⟩ := by
  unfold manyCtors; rw [List.getElem?_replicate, if_pos h]

theorem many_ordinal (n i : Nat) (h : i < n) : specOrdinal (manyCtors n) i = i := by
  unfold specOrdinal manyCtors
  rw [List.getElem?_replicate, if_pos h]
  simp only [List.take_replicate, Nat.one_ne_zero, if_false]
  rw [List.filter_eq_self.2 (by intro a ha; rw [List.eq_of_mem_replicate ha]; decide)]
  simp; omega

/-- The unrestricted claim fails: with 257 constructors with arguments the first and the last build blocks of the same
shape (`makeTagZ` adds the ordinal to the header unchecked, so it spills out of the tag byte). -/
theorem C23_overflow_refuted : ∃ (g : List (Kername × List Ityp)) (kn : Kername) (t : Ityp) (c d : Cnstr),
    (g.map (·.1)).Nodup ∧ Declares g kn 0 0 t c ∧ Declares g kn 0 256 t d ∧
    ∀ (a : W) (s : CSt), s.alloc.toNat % 8 = 0 → ∃ v w r r',
      assignConstructor (convertEnv defaultCtorTag defaultIndTag g).ce
        (dconToInfo defaultCtorTag ⟨kn, 0, 0⟩ (convertEnv defaultCtorTag defaultIndTag g).dcm) [a] s = some (v, r) ∧
      assignConstructor (convertEnv defaultCtorTag defaultIndTag g).ce
        (dconToInfo defaultCtorTag ⟨kn, 0, 256⟩ (convertEnv defaultCtorTag defaultIndTag g).dcm) [a] s = some (w, r') ∧
      shapeOf r.mem v = shapeOf r'.mem w := by
  have hg : (([(⟨.file [['M']], ['t']⟩, [⟨['t'], manyCtors 257⟩])] : List (Kername × List Ityp)).map (·.1)).Nodup := by
    simp
  have h0 : Declares [(⟨.file [['M']], ['t']⟩, [⟨['t'], manyCtors 257⟩])] ⟨.file [['M']], ['t']⟩ 0 0
      ⟨['t'], manyCtors 257⟩ ⟨['C'], 1⟩ :=
    ⟨⟨_, List.mem_singleton.2 rfl, rfl⟩, many_get 257 _ (by omega)⟩
  have h1 : Declares [(⟨.file [['M']], ['t']⟩, [⟨['t'], manyCtors 257⟩])] ⟨.file [['M']], ['t']⟩ 0 256
      ⟨['t'], manyCtors 257⟩ ⟨['C'], 1⟩ :=
    ⟨⟨_, List.mem_singleton.2 rfl, rfl⟩, many_get 257 _ (by omega)⟩
  refine ⟨_, _, _, _, _, hg, h0, h1, ?_⟩
  intro a s hs
  rw [compiled_value _ hg _ _ _ _ _ h0, compiled_value _ hg _ _ _ _ _ h1]
  simp only [Nat.one_ne_zero, if_false, Option.some.injEq, Prod.mk.injEq]
  refine ⟨_, _, _, _, ⟨rfl, rfl⟩, ⟨rfl, rfl⟩, ?_⟩
  rw [many_ordinal _ _ (by omega), many_ordinal _ _ (by omega)]
  simp only
  unfold shapeOf
  have := even_of_align s.alloc hs
  rw [if_neg (by omega), if_neg (by omega), hdr_read _ _ _ _ (by simp), hdr_read _ _ _ _ (by simp)]
  decide

/-- The collector scans the fields of every block built by compiled code, if the type has at most 251 constructors with
arguments (tags from 251 on mean "no pointers inside", runtime/gc_stack.h:91-92). -/
theorem C23_scanned_partial (g : List (Kername × List Ityp)) (hg : (g.map (·.1)).Nodup) (kn : Kername) (k j : Nat)
    (t : Ityp) (c : Cnstr) (hd : Declares g kn k j t c) (h0 : c.arity ≠ 0) (hbox : boxedCount t.ctors ≤ 251)
    (har : c.arity < 2 ^ 54) (vs : List W) (hvs : vs.length = c.arity) (s r : CSt) (v : W)
    (hv : assignConstructor (convertEnv defaultCtorTag defaultIndTag g).ce
      (dconToInfo defaultCtorTag ⟨kn, k, j⟩ (convertEnv defaultCtorTag defaultIndTag g).dcm) vs s = some (v, r)) :
    GC.noScan (GC.tagOf (r.mem (v - 8)).toNat) = false ∧ GC.wosize (r.mem (v - 8)).toNat = c.arity := by
  rw [compiled_value g hg kn k j t c hd, if_neg h0] at hv
  simp only [Option.some.injEq, Prod.mk.injEq] at hv
  obtain ⟨rfl, rfl⟩ := hv
  have hb := ordFrom_lt_boxed _ _ _ hd.ctor h0
  simp only
  rw [hdr_read _ _ _ _ (by omega)]
  simp only [GC.noScan, GC.tagOf, GC.wosize, BitVec.toNat_ofNat, Nat.shiftLeft_eq, decide_eq_false_iff_not]
  constructor <;> omega

/-- With 252 such constructors the block of the last one is not scanned although it holds a value. -/
theorem C23_noscan_refuted : ∃ (g : List (Kername × List Ityp)) (kn : Kername) (t : Ityp) (c : Cnstr),
    (g.map (·.1)).Nodup ∧ Declares g kn 0 251 t c ∧ c.arity = 1 ∧
    ∀ (a : W) (s : CSt), ∃ v r,
      assignConstructor (convertEnv defaultCtorTag defaultIndTag g).ce
        (dconToInfo defaultCtorTag ⟨kn, 0, 251⟩ (convertEnv defaultCtorTag defaultIndTag g).dcm) [a] s = some (v, r) ∧
      GC.noScan (GC.tagOf (r.mem (v - 8)).toNat) = true := by
  have hg : (([(⟨.file [['M']], ['t']⟩, [⟨['t'], manyCtors 252⟩])] : List (Kername × List Ityp)).map (·.1)).Nodup := by
    simp
  have h1 : Declares [(⟨.file [['M']], ['t']⟩, [⟨['t'], manyCtors 252⟩])] ⟨.file [['M']], ['t']⟩ 0 251
      ⟨['t'], manyCtors 252⟩ ⟨['C'], 1⟩ :=
    ⟨⟨_, List.mem_singleton.2 rfl, rfl⟩, many_get 252 _ (by omega)⟩
  refine ⟨_, _, _, _, hg, h1, rfl, ?_⟩
  intro a s
  rw [compiled_value _ hg _ _ _ _ _ h1]
  simp only [Nat.one_ne_zero, if_false, Option.some.injEq, Prod.mk.injEq]
  refine ⟨_, _, ⟨rfl, rfl⟩, ?_⟩
  rw [many_ordinal _ _ (by omega)]
  simp only
  rw [hdr_read _ _ _ _ (by simp)]
  decide

/-- A state with an aligned allocation pointer, and the two shapes built from it for the constructors of a list. -/
example : ∃ s : CSt, s.alloc.toNat % 8 = 0 ∧
    ((assignConstructor (convertEnv 99 99 demoEnv).ce 100 [] s).map fun p => shapeOf p.2.mem p.1) = some (.imm 1) ∧
    ((assignConstructor (convertEnv 99 99 demoEnv).ce 101 [1, 1] s).map fun p => shapeOf p.2.mem p.1) =
      some (.block 0) :=
  ⟨⟨fun _ => 0, 4096⟩, by decide, by decide, by decide⟩

/-- Compiled code and glue code build the same value: the same word for a constructor without arguments, the same
block (same header, same fields, same new allocation pointer) for one with arguments. -/
theorem C23_same_value (g : List (Kername × List Ityp)) (hg : (g.map (·.1)).Nodup) (kn : Kername) (k j : Nat)
    (t : Ityp) (c : Cnstr) (hd : Declares g kn k j t c) (hlen : t.ctors.length ≤ 2 ^ 30) (vs : List W) (s : CSt)
    (gi : GInfo) (hgi : (processCtors t.ctors)[j]? = some gi) :
    assignConstructor (convertEnv defaultCtorTag defaultIndTag g).ce
      (dconToInfo defaultCtorTag ⟨kn, k, j⟩ (convertEnv defaultCtorTag defaultIndTag g).dcm) vs s =
    some (if gi.arity = 0 then (glueUnboxed gi.ordinal, s) else glueAlloc gi.arity gi.ordinal vs s) := by
  rw [processCtors, processAux_get 0 0 t.ctors j c hd.ctor] at hgi
  simp only [Option.some.injEq] at hgi
  subst hgi
  simp only
  rw [compiled_value g hg kn k j t c hd]
  have jl := (List.getElem?_eq_some_iff.1 hd.ctor).1
  have jo := ordFrom_le t.ctors j
  rw [ordFrom_zero]
  by_cases h0 : c.arity = 0
  · rw [if_pos h0, if_pos h0]
    simp only [glueUnboxed]
    rw [sext_small _ (by rw [Nat.shiftLeft_eq]; omega)]
  · rw [if_neg h0, if_neg h0]
    have e1 : s.alloc + 8 * 1 = s.alloc + 8 := by simp
    have e2 : s.alloc + 8 * 0 = s.alloc + 8 - 8 := by
      rw [BitVec.add_sub_cancel]; simp
    simp only [glueAlloc, e1, e2]
    rw [show (1 : Nat) = 0 + 1 from rfl, glueAsgn_eq]

/-! ## C27 -/

theorem isPtr_iff (v : W) : isPtr v = true ↔ v.toNat % 2 = 0 := by
  unfold isPtr
  rw [beq_iff_eq]
  constructor
  · intro h
    have h := congrArg BitVec.toNat h
    simp only [BitVec.toNat_and] at h
    have e : (1 : BitVec 64).toNat = 2 ^ 1 - 1 := rfl
    rw [e, Nat.and_two_pow_sub_one_eq_mod] at h
    simpa using h
  · intro h
    apply BitVec.eq_of_toNat_eq
    have e : (1 : BitVec 64).toNat = 2 ^ 1 - 1 := rfl
    rw [BitVec.toNat_and, e, Nat.and_two_pow_sub_one_eq_mod]
    simpa using h

/-- `get_T_tag` on the word of a constructor without arguments. -/
theorem getTag_unboxed (cs : List Cnstr) (i : Nat) (c : Cnstr) (hi : cs[i]? = some c) (h0 : c.arity = 0)
    (hlen : cs.length ≤ 2 ^ 31) (m : WMem) :
    getTag cs m (BitVec.ofNat 64 ((specOrdinal cs i <<< 1) + 1)) = some (BitVec.ofNat 64 i) := by
  have il := (List.getElem?_eq_some_iff.1 hi).1
  have io := ordFrom_le cs i
  obtain ⟨m1, m2⟩ := matchOrdinals_eq cs 0 0 0
  have hmem : (specOrdinal cs i, i) ∈ (matchOrdinals cs 0 0 0).2 :=
    (m2 _ _).2 ⟨i, c, hi, h0, by omega, (ordFrom_zero cs i).symm⟩
  have hodd : isPtr (BitVec.ofNat 64 ((specOrdinal cs i <<< 1) + 1)) = false := by
    rw [Bool.eq_false_iff]
    intro h
    rw [isPtr_iff, BitVec.toNat_ofNat, Nat.shiftLeft_eq] at h
    omega
  have hshr : getUnboxedOrdinal (BitVec.ofNat 64 ((specOrdinal cs i <<< 1) + 1)) = BitVec.ofNat 64 (specOrdinal cs i) :=
    shl1_shr1 _ (by omega)
  unfold getTag
  generalize hmo : matchOrdinals cs 0 0 0 = mo at m1 m2 hmem
  obtain ⟨bs, us⟩ := mo
  cases us with
  | nil => simp at hmem
  | cons u us =>
    cases bs with
    | nil =>
      simp only [hshr]
      -- all constructors are without arguments, so the ordinal is the index
      have hall : ∀ a ∈ cs, a.arity = 0 := by
        intro a ha
        obtain ⟨n, hn⟩ := List.mem_iff_getElem?.1 ha
        by_contra hne
        have := (m1 (ordFrom 0 0 cs n) (0 + n)).2 ⟨n, a, hn, hne, rfl, rfl⟩
        simp at this
      have : specOrdinal cs i = i := by
        unfold specOrdinal
        rw [hi]; simp only; rw [if_pos h0]
        rw [List.filter_eq_self.2 (by
          intro a ha; simp [hall a (List.mem_of_mem_take ha)])]
        simp; omega
      rw [this]
    | cons b bs =>
      simp only [hodd, hshr, Bool.false_eq_true, if_false]
      rw [runSwitch_hit (specOrdinal cs i) i (u :: us) hmem, sext_small _ (by omega)]
      intro o' n' hm he
      obtain ⟨n, d, hn, hd0, rfl, rfl⟩ := (m2 _ _).1 hm
      rw [ordFrom_zero] at he
      have nl := (List.getElem?_eq_some_iff.1 hn).1
      have no := ordFrom_le cs n
      have he := congrArg BitVec.toNat he
      simp only [BitVec.toNat_ofNat] at he
      rcases Nat.lt_trichotomy n i with h | h | h
      · have := specOrdinal_strict cs n i d c hn hi (by simp [hd0, h0]) h; omega
      · omega
      · have := specOrdinal_strict cs i n c d hi hn (by simp [hd0, h0]) h; omega

/-- `get_T_tag` on a pointer to a block with the header of a constructor with arguments. -/
theorem getTag_boxed (cs : List Cnstr) (i : Nat) (c : Cnstr) (hi : cs[i]? = some c) (h0 : c.arity ≠ 0)
    (hbox : boxedCount cs ≤ 256) (hlen : cs.length ≤ 2 ^ 31) (m : WMem) (v : W) (hv : v.toNat % 2 = 0) (a : Nat)
    (hm : m (v - 8) = BitVec.ofNat 64 ((a <<< 10) + specOrdinal cs i)) :
    getTag cs m v = some (BitVec.ofNat 64 i) := by
  have il := (List.getElem?_eq_some_iff.1 hi).1
  have ib := ordFrom_lt_boxed cs i c hi h0
  obtain ⟨m1, m2⟩ := matchOrdinals_eq cs 0 0 0
  have hmem : (specOrdinal cs i, i) ∈ (matchOrdinals cs 0 0 0).1 :=
    (m1 _ _).2 ⟨i, c, hi, h0, by omega, (ordFrom_zero cs i).symm⟩
  have hp : isPtr v = true := (isPtr_iff v).2 hv
  have hord : getBoxedOrdinal m v = BitVec.ofNat 64 (specOrdinal cs i) := by
    unfold getBoxedOrdinal; rw [hm, hdr_and _ _ (by omega)]
  unfold getTag
  generalize hmo : matchOrdinals cs 0 0 0 = mo at m1 m2 hmem
  obtain ⟨bs, us⟩ := mo
  cases bs with
  | nil => simp at hmem
  | cons b bs =>
    cases us with
    | nil =>
      simp only [hord]
      have hall : ∀ a ∈ cs, a.arity ≠ 0 := by
        intro a ha
        obtain ⟨n, hn⟩ := List.mem_iff_getElem?.1 ha
        intro hne
        have := (m2 (ordFrom 0 0 cs n) (0 + n)).2 ⟨n, a, hn, hne, rfl, rfl⟩
        simp at this
      have : specOrdinal cs i = i := by
        unfold specOrdinal
        rw [hi]; simp only; rw [if_neg h0]
        rw [List.filter_eq_self.2 (by
          intro a ha; simp [hall a (List.mem_of_mem_take ha)])]
        simp; omega
      rw [this]
    | cons u us =>
      simp only [hp, hord, if_true]
      rw [runSwitch_hit (specOrdinal cs i) i (b :: bs) hmem, sext_small _ (by omega)]
      intro o' n' hm' he
      obtain ⟨n, d, hn, hd0, rfl, rfl⟩ := (m1 _ _).1 hm'
      rw [ordFrom_zero] at he
      have nb := ordFrom_lt_boxed cs n d hn hd0
      have he := congrArg BitVec.toNat he
      simp only [BitVec.toNat_ofNat] at he
      rcases Nat.lt_trichotomy n i with h | h | h
      · have := specOrdinal_strict cs n i d c hn hi (by simp [hd0, h0]) h; omega
      · omega
      · have := specOrdinal_strict cs i n c d hi hn (by simp [hd0, h0]) h; omega

/-- `get_T_tag(make_T_C())` is the index of `C`, for a constructor without arguments. -/
theorem C27_unboxed (cs : List Cnstr) (hlen : cs.length ≤ 2 ^ 30) (i : Nat) (gi : GInfo)
    (hgi : (processCtors cs)[i]? = some gi) (h0 : gi.arity = 0) (hi : i < cs.length) (m : WMem) :
    getTag cs m (glueUnboxed gi.ordinal) = some (BitVec.ofNat 64 i) := by
  have hc : cs[i]? = some cs[i] := List.getElem?_eq_getElem hi
  rw [processCtors, processAux_get 0 0 cs i _ hc] at hgi
  simp only [Option.some.injEq] at hgi
  subst hgi
  simp only at h0 ⊢
  have := ordFrom_le cs i
  rw [ordFrom_zero, glueUnboxed, sext_small _ (by rw [Nat.shiftLeft_eq]; omega)]
  exact getTag_unboxed cs i _ hc h0 (by omega) m

/-- For a constructor with arguments of a type with at most 256 such constructors, the block made by
`make_T_C(args, argv)` is recognised by `get_T_tag`, `get_args` gives its arguments, and no other word is written. -/
theorem C27_boxed_partial (cs : List Cnstr) (hlen : cs.length ≤ 2 ^ 30) (hbox : boxedCount cs ≤ 256) (i : Nat)
    (gi : GInfo) (hgi : (processCtors cs)[i]? = some gi) (h0 : gi.arity ≠ 0) (hi : i < cs.length)
    (args : List W) (hargs : args.length = gi.arity) (har : gi.arity < 2 ^ 54) (argv : W) (hal : argv.toNat % 8 = 0)
    (m : WMem) :
    let r := glueMake gi.arity gi.ordinal args argv m
    getTag cs r.2 r.1 = some (BitVec.ofNat 64 i) ∧
    (∀ n w, args[n]? = some w → r.2 (getArgs r.1 + 8 * BitVec.ofNat 64 n) = w) ∧
    (∀ a, a ≠ argv → (∀ n, n < gi.arity → a ≠ argv + 8 + 8 * BitVec.ofNat 64 n) → r.2 a = m a) := by
  have hc : cs[i]? = some cs[i] := List.getElem?_eq_getElem hi
  rw [processCtors, processAux_get 0 0 cs i _ hc] at hgi
  simp only [Option.some.injEq] at hgi
  subst hgi
  simp only at h0 hargs har ⊢
  rw [ordFrom_zero]
  have e1 : argv + 8 * 1 = argv + 8 := by simp
  have e2 : argv + 8 * 0 = argv + 8 - 8 := by
    rw [BitVec.add_sub_cancel]; simp
  simp only [glueMake, e1, e2]
  rw [show (1 : Nat) = 0 + 1 from rfl, glueAsgn_eq]
  refine ⟨?_, ?_, ?_⟩
  · exact getTag_boxed cs i _ hc h0 hbox (by omega) _ _ (even_of_align argv hal) _ (hdr_read _ _ _ _ (by omega))
  · intro n w hw
    have := fields_get (argv + 8) 0 args (m.put (argv + 8 - 8)
      (BitVec.ofNat 64 (cs[i].arity <<< 10 + specOrdinal cs i))) n w hw (by omega)
    rwa [Nat.zero_add] at this
  · intro a ha hn
    rw [fields_other]
    · simp only [WMem.put]
      rw [if_neg (by rwa [BitVec.add_sub_cancel])]
    · intro n hn'
      rw [Nat.zero_add]
      exact hn n (by omega)

/-- The same for `alloc_make_T_C(tinfo, args)`, which also moves `tinfo->alloc` past the block. -/
theorem C27_alloc_partial (cs : List Cnstr) (hlen : cs.length ≤ 2 ^ 30) (hbox : boxedCount cs ≤ 256) (i : Nat)
    (gi : GInfo) (hgi : (processCtors cs)[i]? = some gi) (h0 : gi.arity ≠ 0) (hi : i < cs.length)
    (args : List W) (hargs : args.length = gi.arity) (har : gi.arity < 2 ^ 54) (s : CSt) (hal : s.alloc.toNat % 8 = 0) :
    let r := glueAlloc gi.arity gi.ordinal args s
    getTag cs r.2.mem r.1 = some (BitVec.ofNat 64 i) ∧
    (∀ n w, args[n]? = some w → r.2.mem (getArgs r.1 + 8 * BitVec.ofNat 64 n) = w) ∧
    (∀ a, a ≠ s.alloc → (∀ n, n < gi.arity → a ≠ s.alloc + 8 + 8 * BitVec.ofNat 64 n) → r.2.mem a = s.mem a) ∧
    r.2.alloc = s.alloc + 8 * BitVec.ofNat 64 (gi.arity + 1) := by
  obtain ⟨h1, h2, h3⟩ := C27_boxed_partial cs hlen hbox i gi hgi h0 hi args hargs har s.alloc hal s.mem
  exact ⟨h1, h2, h3, rfl⟩

/-- Values built by compiled code are recognised by the glue code. -/
theorem C27_compiled_partial (g : List (Kername × List Ityp)) (hg : (g.map (·.1)).Nodup) (kn : Kername) (k j : Nat)
    (t : Ityp) (c : Cnstr) (hd : Declares g kn k j t c) (hlen : t.ctors.length ≤ 2 ^ 30)
    (hbox : boxedCount t.ctors ≤ 256) (vs : List W) (hvs : vs.length = c.arity) (har : c.arity < 2 ^ 54) (s : CSt)
    (hs : s.alloc.toNat % 8 = 0) :
    ∃ v r, assignConstructor (convertEnv defaultCtorTag defaultIndTag g).ce
      (dconToInfo defaultCtorTag ⟨kn, k, j⟩ (convertEnv defaultCtorTag defaultIndTag g).dcm) vs s = some (v, r) ∧
      getTag t.ctors r.mem v = some (BitVec.ofNat 64 j) ∧
      ∀ n w, vs[n]? = some w → r.mem (getArgs v + 8 * BitVec.ofNat 64 n) = w := by
  rw [compiled_value g hg kn k j t c hd]
  by_cases h0 : c.arity = 0
  · rw [if_pos h0]
    refine ⟨_, _, rfl, getTag_unboxed t.ctors j c hd.ctor h0 (by omega) _, ?_⟩
    intro n w hw
    have : vs = [] := List.eq_nil_of_length_eq_zero (by omega)
    simp [this] at hw
  · rw [if_neg h0]
    refine ⟨_, _, rfl, getTag_boxed t.ctors j c hd.ctor h0 hbox (by omega) _ _ (even_of_align _ hs) _
      (hdr_read _ _ _ _ (by omega)), ?_⟩
    intro n w hw
    have := fields_get (s.alloc + 8) 0 vs (s.mem.put (s.alloc + 8 - 8)
      (BitVec.ofNat 64 (c.arity <<< 10 + specOrdinal t.ctors j))) n w hw (by omega)
    rwa [Nat.zero_add] at this

/-- The unrestricted claim fails: with 257 constructors with one argument, `get_T_tag` takes the last for the first. -/
theorem C27_overflow_refuted : ∃ cs : List Cnstr, ∃ gi, (processCtors cs)[256]? = some gi ∧
    ∀ (a argv : W) (m : WMem),
      let r := glueMake gi.arity gi.ordinal [a] argv m
      getTag cs r.2 r.1 = some 0 := by
  have hc : (manyCtors 257)[256]? = some ⟨['C'], 1⟩ := many_get 257 _ (by omega)
  refine ⟨manyCtors 257, _, processAux_get 0 0 _ 256 _ hc, ?_⟩
  intro a argv m
  rw [ordFrom_zero, many_ordinal _ _ (by omega)]
  have e1 : argv + 8 * 1 = argv + 8 := by simp
  have e2 : argv + 8 * 0 = argv + 8 - 8 := by
    rw [BitVec.add_sub_cancel]; simp
  simp only [glueMake, e1, e2]
  have e3 : glueAsgn argv 1 [a] (m.put (argv + 8 - 8) (BitVec.ofNat 64 (1 <<< 10 + 256))) (argv + 8 - 8) =
      BitVec.ofNat 64 (1 <<< 10 + 256) := by
    rw [show (1 : Nat) = 0 + 1 from rfl, glueAsgn_eq]
    exact hdr_read _ _ _ _ (by simp)
  obtain ⟨m1, m2⟩ := matchOrdinals_eq (manyCtors 257) 0 0 0
  unfold getTag
  generalize hmo : matchOrdinals (manyCtors 257) 0 0 0 = mo at m1 m2
  obtain ⟨bs, us⟩ := mo
  have hus : us = [] := by
    cases us with
    | nil => rfl
    | cons u us =>
      obtain ⟨n, d, hn, hd0, _⟩ := (m2 u.1 u.2).1 (by simp)
      have := List.eq_of_mem_replicate (List.mem_of_getElem? hn)
      rw [this] at hd0; simp at hd0
  have hbs : bs ≠ [] := by
    intro h
    have := (m1 _ _).2 ⟨256, _, hc, by simp, rfl, rfl⟩
    simp [h] at this
  subst hus
  cases bs with
  | nil => exact absurd rfl hbs
  | cons b bs =>
    simp only [getBoxedOrdinal, e3]
    decide

/-- Row `i` of the names table is the name of constructor `i`. -/
theorem C27_names (cs : List Cnstr) (i : Nat) (c : Cnstr) (h : cs[i]? = some c) (hn : Char.ofNat 0 ∉ c.name) :
    readName (namesArray cs) i = c.name := by
  obtain ⟨r, hr⟩ := normalizedNames_drop cs 1 i c h
  unfold readName namesArray
  rw [hr, padCharInit, stringAsArray_eq]
  generalize List.replicate _ _ = z
  simp only [List.append_assoc, List.cons_append, List.nil_append]
  have : ∀ (s t : Str), Char.ofNat 0 ∉ s → (s ++ Char.ofNat 0 :: t).takeWhile (· ≠ Char.ofNat 0) = s := by
    intro s t hs
    induction s with
    | nil => simp
    | cons c s ih =>
      simp only [List.mem_cons, not_or] at hs
      have := ih hs.2
      simp only [ne_eq, decide_not] at this ⊢
      simp [Ne.symm hs.1, this]
  exact this _ _ hn

/-- All rows have the same length, so the table is as long as its C type says. -/
theorem C27_names_size (cs : List Cnstr) : (namesArray cs).2.length = (namesArray cs).1 * cs.length := by
  unfold namesArray
  generalize 1 = n
  induction cs generalizing n with
  | nil => simp [normalizedNames]
  | cons c cs ih =>
    have h := ih (max n (c.name.length + 1))
    have hle := (normalizedNames_fst cs (max n (c.name.length + 1))).1
    simp only [normalizedNames, List.length_append, h, padCharInit, stringAsArray_eq, List.length_replicate,
      List.length_cons, List.length_nil, Nat.mul_succ]
    omega

example : processCtors [⟨['n'], 0⟩, ⟨['c'], 2⟩, ⟨['d'], 1⟩] = [⟨['n'], 0, 0⟩, ⟨['c'], 2, 0⟩, ⟨['d'], 1, 1⟩] := by decide
example : boxedCount [⟨['n'], 0⟩, ⟨['c'], 2⟩, ⟨['d'], 1⟩] ≤ 256 := by decide
example : readName (namesArray [⟨['n', 'i', 'l'], 0⟩, ⟨['c', 'o', 'n', 's'], 2⟩]) 1 = ['c', 'o', 'n', 's'] := by decide

/-- `bool` in its declaration order. -/
def boolCtors : List Cnstr := [⟨['t', 'r', 'u', 'e'], 0⟩, ⟨['f', 'a', 'l', 's', 'e'], 0⟩]

/-- With the mapping `bool => [1 0]` that both plugins declare (cplugin/Loader.v, plugin/Loader.v), compiled code sees
the reordered constructors while the glue generator is run on the original declaration: the glue function
`make_bool_true` returns the word compiled code uses for `false`, and the glue code prints compiled `true` as `false`. -/
theorem C23_reorder_refuted :
    let cs := boolCtors
    let cs' := reorder [1, 0] cs
    ∃ gi, (processCtors cs)[0]? = some gi ∧ gi.name = ['t', 'r', 'u', 'e'] ∧
      (cs'[0]?.map (·.name)) = some ['f', 'a', 'l', 's', 'e'] ∧
      (∀ (g : List (Kername × List Ityp)) (kn : Kername) (t : Ityp) (s : CSt), (g.map (·.1)).Nodup → t.ctors = cs' →
        Declares g kn 0 0 t ⟨['f', 'a', 'l', 's', 'e'], 0⟩ →
        assignConstructor (convertEnv defaultCtorTag defaultIndTag g).ce
          (dconToInfo defaultCtorTag ⟨kn, 0, 0⟩ (convertEnv defaultCtorTag defaultIndTag g).dcm) [] s =
          some (glueUnboxed gi.ordinal, s)) := by
  refine ⟨⟨['t', 'r', 'u', 'e'], 0, 0⟩, by decide, by decide, by decide, ?_⟩
  intro g kn t s hg ht hd
  rw [compiled_value g hg kn 0 0 t _ hd]
  simp only [if_true]
  rw [ht]
  rfl

/-! ## C28 -/

/-- Distinct qualified names can get the same C name: `M.a_b` and `M.a.b`. -/
theorem C28_refuted : ∃ n n' : Kername, n ≠ n' ∧ n.mp.Wf ∧ n'.mp.Wf ∧ sanitizeQualified n = sanitizeQualified n' :=
  ⟨⟨.file [['M']], ['a', '_', 'b']⟩, ⟨.dot (.file [['M']]) ['a'], ['b']⟩, by decide, by simp [ModPath.Wf],
    by simp [ModPath.Wf], by decide⟩

/-- Constructor functions of different types can get the same C name: `t.a_b` and `t_a.b`. -/
theorem C28_ctor_refuted : ∃ (n n' : Kername) (c c' : Str), n ≠ n' ∧ makeName n c = makeName n' c' :=
  ⟨⟨.file [['M']], ['t']⟩, ⟨.file [['M']], ['t', '_', 'a']⟩, ['a', '_', 'b'], ['b'], by decide, by decide⟩

/-- What holds: names whose components contain no underscore are told apart by their list of components. -/
theorem C28_partial (n n' : Kername) (h : n.mp.Wf) (h' : n'.mp.Wf) (hu : ∀ s ∈ n.components, '_' ∉ s)
    (hu' : ∀ s ∈ n'.components, '_' ∉ s) (he : sanitizeQualified n = sanitizeQualified n') :
    n.components = n'.components := by
  rw [sanitizeQualified_eq n h, sanitizeQualified_eq n' h'] at he
  exact concatSep_inj _ _ hu hu' (by simp [Kername.components]) (by simp [Kername.components]) he

/-- The same for constructor functions. -/
theorem C28_ctor_partial (n n' : Kername) (c c' : Str) (h : n.mp.Wf) (h' : n'.mp.Wf)
    (hu : ∀ s ∈ n.components, '_' ∉ s) (hu' : ∀ s ∈ n'.components, '_' ∉ s) (hc : '_' ∉ c) (hc' : '_' ∉ c')
    (he : makeName n c = makeName n' c') : n.components = n'.components ∧ c = c' := by
  unfold makeName at he
  simp only [List.append_assoc, List.append_cancel_left_eq] at he
  rw [sanitizeQualified_eq n h, sanitizeQualified_eq n' h'] at he
  have hk : ∀ (l : List Str) (c : Str), l ≠ [] → concatSep ['_'] l ++ (['_'] ++ c) = concatSep ['_'] (l ++ [c]) := by
    intro l c hl
    rw [concatSep_append _ _ _ hl (by simp)]; simp [concatSep]
  rw [hk _ _ (by simp [Kername.components]), hk _ _ (by simp [Kername.components])] at he
  have := concatSep_inj _ _ (by
      intro s hs; rcases List.mem_append.1 hs with hs | hs
      · exact hu s hs
      · rw [List.mem_singleton.1 hs]; exact hc) (by
      intro s hs; rcases List.mem_append.1 hs with hs | hs
      · exact hu' s hs
      · rw [List.mem_singleton.1 hs]; exact hc') (by simp) (by simp) he
  have := List.append_inj' this rfl
  exact ⟨this.1, by simpa using this.2⟩

example : (∀ s ∈ (⟨.dot (.file [['B'], ['A']]) ['M'], ['t']⟩ : Kername).components, '_' ∉ s) ∧
    sanitizeQualified ⟨.dot (.file [['B'], ['A']]) ['M'], ['t']⟩ = ['A', '_', 'B', '_', 'M', '_', 't'] := by decide

/-! ## C49 -/

/-- All declared identifiers are pairwise distinct and below the first program variable. -/
theorem C49_declared : declaredIdents.Nodup ∧ (∀ i ∈ declaredIdents, 0 < i ∧ i < nextId) ∧
    ∀ i ∈ backendIdents, i ∈ declaredIdents := by decide

/-- The identifiers actually passed to the C backend are not pairwise distinct: the local array of roots and the
`root` field of stack frames share identifier 84, so both are printed under the same name. -/
theorem C49_backend_refuted : ¬ backendIdents.Nodup ∧ backendIdents.count 84 = 2 := by decide

/-- Primitives get pairwise distinct identifiers, none of them reserved, and program variables start above them. -/
theorem C49_prims {α : Type} (prs : List α) :
    let r := pickPrimIdent nextId prs
    r.1.map (·.1) = prs ∧ (r.1.map (·.2)).Nodup ∧ (∀ i ∈ r.1.map (·.2), i ∉ declaredIdents ∧ i < r.2) ∧
    ∀ i ∈ declaredIdents, i < r.2 := by
  obtain ⟨h1, h2, h3⟩ := pickPrimIdent_spec nextId prs
  simp only [h1, h2, h3]
  have hd : ∀ i ∈ declaredIdents, i < nextId := by decide
  refine ⟨trivial, List.Nodup.map (fun a b h => by simpa using h) List.nodup_range, ?_, fun i hi => by
    have := hd i hi; omega⟩
  intro i hi
  simp only [List.mem_map, List.mem_range] at hi
  obtain ⟨k, hk, rfl⟩ := hi
  exact ⟨fun h => by have := hd _ h; omega, by omega⟩

/-- The C names given to distinct program variables are distinct. -/
theorem C49_unique_names (nenv : PMap (Option Str)) (x y : Nat) (s : Str) (hx : ensureUnique nenv x = some (some s))
    (hy : ensureUnique nenv y = some (some s)) : x = y := by
  have key : ∀ z, ensureUnique nenv z = some (some s) → s.reverse.takeWhile (· ≠ '_') = (showPos z).reverse := by
    intro z hz
    simp only [ensureUnique, Option.map_eq_some_iff] at hz
    obtain ⟨n, _, n', _, rfl⟩ := hz
    exact takeWhile_end n' (showPos z) (fun h => (showPos_digit z _ h).2 rfl)
  exact showPos_inj x y (List.reverse_injective ((key x hx).symm.trans (key y hy)))

/-- No program variable gets the C name of a runtime function, struct, field or local. -/
theorem C49_runtime_names (nenv : PMap (Option Str)) (x : Nat) (s : Str) (hx : ensureUnique nenv x = some (some s)) :
    s ∉ infNames := by
  intro hs
  have hk : ∀ n ∈ infNames, ¬ ('_' ∈ n ∧ (n.reverse.takeWhile (· ≠ '_')).all Char.isDigit = true) := by decide
  apply hk s hs
  simp only [ensureUnique, Option.map_eq_some_iff] at hx
  obtain ⟨n, _, n', _, rfl⟩ := hx
  have e := takeWhile_end n' (showPos x) (fun h => (showPos_digit x _ h).2 rfl)
  refine ⟨by simp, ?_⟩
  rw [show n' ++ (['_'] ++ showPos x) = n' ++ '_' :: showPos x from rfl, e, List.all_eq_true]
  intro c hc
  exact (showPos_digit x c (by simpa using hc)).1

example : ensureUnique (fun x => if x = 107 then some (some ['f']) else none) 107 = some (some ['f', '_', '1', '0', '7']) := by
  have : showPos 107 = ['1', '0', '7'] := by simp [showPos]
  simp [ensureUnique, this]

end Ctor
