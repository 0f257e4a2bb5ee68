import Verif.CGen.FfiLemmas

/-!
# C61: compiled code calls a foreign C function through the generated closures

Properties.  `nm` names the generated functions, `arity` and `io` are those of the type of the foreign function.
-/

namespace CGen.Ffi

open ANF (Var)

/-- The closure generated for a foreign function has received nothing, and its code is the first of the generated
functions. -/
theorem C61_closure (o : FOpts) (t : FTy) (nm : Nat → Var) (h : Th) (p : Nat)
    (hm : ∀ i, i < 2 → h.mem (p + i) = (oneField o t nm).2[i]?) (h0 : Off h p) (h1 : Off h (p + 1)) :
    FClo h (nm t.args.1) [] (.ptr p) ∧ ((oneField o t nm).1.map (·.1)).head? = some (nm t.args.1) := by
  have m0 := hm 0 (by omega)
  have m1 := hm 1 (by omega)
  refine ⟨⟨p, .int 1, rfl, by simpa [oneField] using m0, by simpa [oneField] using m1, h0, h1, True.intro⟩, ?_⟩
  simp only [oneField]
  cases t.args.1 with
  | zero => rfl
  | succ n => unfold curriedFns; split <;> rfl

/-- One application before the last, in continuation-passing style: the continuation receives a closure of the next
function, which has received one argument more; six words are allocated and nothing else changes. -/
theorem C61_step_partial (ext : Ext) (n : Nat) (o : FOpts) (hd : o.direct = false) (arity : Nat) (io : Bool)
    (nm : Nat → Var) (hi : ∀ i j, i ≤ arity → j ≤ arity → nm i = nm j → i = j) (num : Nat) (hn : num + 1 ≤ arity)
    (hio : io = false → 0 < num) (h : Th) (k kf ke c a : CVal) (as : List CVal) (hc : FClo h (nm (num + 1)) as c)
    (hk : KIs h k kf ke) (hr : h.alloc + 6 ≤ h.limit) :
    ∃ c' h', applyCps ext n o.np (curriedFns o arity io nm arity) k c a h = contWith o.np kf ke c' h' ∧
      FClo h' (nm num) (as ++ [a]) c' ∧ Grew 6 h h' := by
  obtain ⟨p, e, rfl, m1, m2, -, -, he⟩ := hc
  have hl : isLast (num + 1) io = false := by
    cases io
    · have := hio rfl; simp [isLast]; omega
    · simp [isLast]
  obtain ⟨nx, l, en, hx, hcall⟩ := callF_ok ext n o arity io nm hi (num + 1) ⟨hn, by simp⟩ e k a h
  obtain rfl : nx = nm num := hx hl
  simp only [hl, hd, Bool.false_eq_true, if_false] at hcall
  obtain ⟨l', h', c', e1, e2, e3, -, e5, e6⟩ := makeClo_ok ext n (nm num) l
    { h with args := passArgs o.np [e, k, a] h.args } e a as en.env en.arg (he.args _) hr
  refine ⟨c', h', ?_, e6, e5⟩
  simp only [applyCps, rd, Nat.add_zero, m1, m2, hcall, e1]
  have hk' : KIs h' k kf ke := hk.mono e5.1 (by rw [e5.2.1]; omega) e5.2.2.1
  exact final_cps ext n o hd _ l' h' k kf ke c' (by rw [e2, en.k hd]) hk' e3

/-- The last application, in continuation-passing style: the C function is called with all the arguments in order, and its
result goes to the continuation; for a function in `IO`, the last argument is the world and a pair of the result and the
world goes to the continuation. -/
theorem C61_call_partial (ext : Ext) (o : FOpts) (hd : o.direct = false) (arity : Nat) (io : Bool)
    (nm : Nat → Var) (hi : ∀ i j, i ≤ arity → j ≤ arity → nm i = nm j → i = j) (hpos : io = false → 0 < arity)
    (h : Th) (k kf ke c a : CVal) (as : List CVal)
    (hc : FClo h (nm (if io then 0 else 1)) as c) (hlen : as.length + (if io then 0 else 1) = arity) :
    ∃ h1, SameBut h h1 ∧
      (ext (as ++ if io then [] else [a]) h1 = none →
        applyCps ext arity o.np (curriedFns o arity io nm arity) k c a h = .ub) ∧
      (∀ r h2, ext (as ++ if io then [] else [a]) h1 = some (r, h2) → KIs h2 k kf ke →
        (io = true → h2.alloc + 3 ≤ h2.limit) →
        ∃ v h3, applyCps ext arity o.np (curriedFns o arity io nm arity) k c a h = contWith o.np kf ke v h3 ∧
          (io = false → v = r ∧ h3 = h2) ∧
          (io = true → ∃ p, v = .ptr p ∧ PairAt h3 p r a ∧ Grew 3 h2 h3)) := by
  obtain ⟨p, e, rfl, m1, m2, -, -, he⟩ := hc
  have hl : isLast (if io then 0 else 1) io = true := by cases io <;> simp [isLast]
  have hh : Has arity io (if io then 0 else 1) := by
    cases io
    · exact ⟨hpos rfl, by simp⟩
    · exact ⟨by simp, by simp⟩
  obtain ⟨nx, l, en, -, hcall⟩ := callF_ok ext arity o arity io nm hi _ hh e k a h
  simp only [hl, hd, Bool.false_eq_true, if_true, if_false] at hcall
  obtain ⟨l', k1, a1, ex⟩ := callExtern_ok ext arity io { h with args := passArgs o.np [e, k, a] h.args } e a l as
    (he.args _) hlen en.env en.arg
  have happ : applyCps ext arity o.np (curriedFns o arity io nm arity) k (.ptr p) a h =
      execF ext arity ((callExtern arity io).2 ++ final o (callExtern arity io).1) l
        { h with args := passArgs o.np [e, k, a] h.args } := by
    simp only [applyCps, rd, Nat.add_zero, m1, m2, hcall]
  refine ⟨{ h with args := passArgs o.np [e, k, a] h.args }, ⟨rfl, rfl, rfl, rfl, rfl, rfl⟩, fun hnone => ?_,
    fun r h2 hsome hk hr => ?_⟩
  · rw [happ, ex, hnone]
  · rw [happ, ex, hsome]
    simp only
    have kk : l' .k = some k := by rw [k1, en.k hd]
    cases io
    · refine ⟨r, h2, ?_, fun _ => ⟨rfl, rfl⟩, by simp⟩
      exact final_cps ext arity o hd _ _ h2 k kf ke r (by simp [Loc.put, kk]) hk (by simp [callExtern, Loc.put])
    · have hr := hr rfl
      have g := grew_blk h2 r a hr
      refine ⟨.ptr (h2.alloc + 1), blk h2 r a, ?_, by simp, fun _ => ⟨h2.alloc + 1, rfl, ⟨?_, ?_, ?_⟩, g⟩⟩
      · simp only [if_true]
        rw [block_ok ext arity .pair (.var .res) (.var .arg) r a _ h2 _ (fun c h' => by simp [evalF, Loc.put])
          (fun c h' => by simp [evalF, Loc.put, a1]) hr]
        exact final_cps ext arity o hd _ _ _ k kf ke _ (by simp [Loc.put, kk])
          (hk.mono g.1 (by simp [blk]) rfl) (by simp [callExtern, Loc.put])
      · exact blk_0 h2 r a
      · exact blk_1 h2 r a
      · exact blk_2 h2 r a

/-- All the applications one after the other, for every arity: from a closure that has received `pre` the others `rest`
follow (with the world at the end for a function in `IO`); the C function is called once, with all of them in order. -/
theorem C61_all_partial (ext : Ext) (o : FOpts) (hd : o.direct = false) (arity : Nat) (io : Bool)
    (nm : Nat → Var) (hi : ∀ i j, i ≤ arity → j ≤ arity → nm i = nm j → i = j) (k kf ke : CVal) (w : CVal) :
    ∀ (rest : List CVal) (h : Th) (c : CVal) (pre : List CVal) (num : Nat), FClo h (nm num) pre c →
    pre.length + num = arity → (io = false → rest ≠ []) → rest.length = num → KIs h k kf ke →
    h.alloc + 6 * (rest ++ if io then [w] else []).length ≤ h.limit + 6 →
    ∃ h1 m, Grew m h h1 ∧ m ≤ 6 * rest.length ∧
      (ext (pre ++ rest) h1 = none →
        applyAll ext arity o.np (curriedFns o arity io nm arity) k c (rest ++ if io then [w] else []) h = .ub) ∧
      (∀ r h2, ext (pre ++ rest) h1 = some (r, h2) → KIs h2 k kf ke → (io = true → h2.alloc + 3 ≤ h2.limit) →
        ∃ v h3, applyAll ext arity o.np (curriedFns o arity io nm arity) k c (rest ++ if io then [w] else []) h =
            contWith o.np kf ke v h3 ∧
          (io = false → v = r ∧ h3 = h2) ∧
          (io = true → ∃ p, v = .ptr p ∧ PairAt h3 p r w ∧ Grew 3 h2 h3))
  | [], h, c, pre, num, hc, hlen, hne, hrest, hk, hr => by
    cases io
    · exact absurd rfl (hne rfl)
    · obtain rfl : num = 0 := by simpa using hrest.symm
      obtain ⟨h1, s, c1, c2⟩ := C61_call_partial ext o hd arity true nm hi (by simp) h k kf ke c w pre (by simpa using hc)
        (by simpa using hlen)
      refine ⟨h1, 0, ⟨fun a _ => by rw [s.1], s.2.1, s.2.2.1, s.2.2.2.1, s.2.2.2.2.1, s.2.2.2.2.2⟩, by simp, ?_, ?_⟩
      · intro hnone
        simpa [applyAll] using c1 (by simpa using hnone)
      · intro r h2 hsome hk2 hr2
        simpa [applyAll] using c2 r h2 (by simpa using hsome) hk2 hr2
  | a :: rest, h, c, pre, num, hc, hlen, hne, hrest, hk, hr => by
    by_cases hlast : io = false ∧ rest = []
    · obtain ⟨rfl, rfl⟩ := hlast
      obtain rfl : num = 1 := by simpa using hrest.symm
      obtain ⟨h1, s, c1, c2⟩ := C61_call_partial ext o hd arity false nm hi (by omega) h k kf ke c a pre
        (by simpa using hc) (by simpa using hlen)
      refine ⟨h1, 0, ⟨fun a _ => by rw [s.1], s.2.1, s.2.2.1, s.2.2.2.1, s.2.2.2.2.1, s.2.2.2.2.2⟩, by simp, ?_, ?_⟩
      · intro hnone
        simpa [applyAll] using c1 (by simpa using hnone)
      · intro r h2 hsome hk2 hr2
        simpa [applyAll] using c2 r h2 (by simpa using hsome) hk2 hr2
    · obtain ⟨num, rfl⟩ : ∃ m, num = m + 1 := ⟨rest.length, by simpa using hrest.symm⟩
      have hrl : rest.length = num := by simpa using hrest
      have hn : io = false → 0 < num := by
        intro hf
        have : rest ≠ [] := fun hnil => hlast ⟨hf, hnil⟩
        have := List.length_pos_iff.2 this
        omega
      have hlim : h.alloc + 6 * (rest ++ if io then [w] else []).length ≤ h.limit := by
        simp only [List.cons_append, List.length_cons] at hr
        omega
      have hpos : 0 < (rest ++ if io then [w] else []).length := by
        cases io
        · have := hn rfl; simp; omega
        · simp
      obtain ⟨c', h', s1, s2, s3⟩ := C61_step_partial ext arity o hd arity io nm hi num (by omega) hn h k kf ke c a pre hc hk
        (by omega)
      let h'' : Th := { h' with args := passArgs o.np [ke, c'] h'.args }
      have ha' : h'.alloc = h.alloc + 6 := s3.2.1
      have hl' : h'.limit = h.limit := s3.2.2.1
      obtain ⟨h1, m, g, hm, i1, i2⟩ := C61_all_partial ext o hd arity io nm hi k kf ke w rest h'' c' (pre ++ [a]) num
        (s2.args _) (by simp; omega)
        (fun hf hnil => hlast ⟨hf, hnil⟩) hrl
        ((hk.mono s3.1 (by omega) hl').args _)
        (by show h'.alloc + _ ≤ h'.limit + 6; omega)
      have hstep : ∀ tl, tl ≠ [] → applyAll ext arity o.np (curriedFns o arity io nm arity) k c (a :: tl) h =
          applyAll ext arity o.np (curriedFns o arity io nm arity) k c' tl h'' := by
        intro tl htl
        obtain ⟨b, tl, rfl⟩ := List.exists_cons_of_ne_nil htl
        rw [applyAll, s1, received_contWith]
        simp
      have hne' : rest ++ (if io then [w] else []) ≠ [] := by
        cases io
        · simpa using fun hnil => hlast ⟨rfl, hnil⟩
        · simp
      refine ⟨h1, 6 + m, s3.trans g, by simp; omega, ?_, ?_⟩
      · intro hnone
        rw [List.cons_append, hstep _ hne']
        exact i1 (by simpa using hnone)
      · intro r h2 hsome hk2 hr2
        rw [List.cons_append, hstep _ hne']
        exact i2 r h2 (by simpa using hsome) hk2 hr2

/-- In direct style the generated functions do the same, but leave the closure or the result in `tinfo->args[1]` and return
nothing. -/
theorem C61_direct_partial (ext : Ext) (o : FOpts) (hd : o.direct = true) (arity : Nat) (io : Bool)
    (nm : Nat → Var) (hi : ∀ i j, i ≤ arity → j ≤ arity → nm i = nm j → i = j) (hpos : io = false → 0 < arity)
    (h : Th) (c a : CVal) (as : List CVal) :
    (∀ num, num + 1 ≤ arity → (io = false → 0 < num) → FClo h (nm (num + 1)) as c → h.alloc + 6 ≤ h.limit →
      ∃ c' h', applyDirect ext arity o.np (curriedFns o arity io nm arity) c a h =
          .done { h' with args := setArr h'.args 1 c' } ∧ FClo h' (nm num) (as ++ [a]) c' ∧ Grew 6 h h') ∧
    (FClo h (nm (if io then 0 else 1)) as c → as.length + (if io then 0 else 1) = arity →
      ∃ h1, SameBut h h1 ∧ ∀ r h2, ext (as ++ if io then [] else [a]) h1 = some (r, h2) →
        (io = true → h2.alloc + 3 ≤ h2.limit) →
        ∃ v h3, applyDirect ext arity o.np (curriedFns o arity io nm arity) c a h =
            .done { h3 with args := setArr h3.args 1 v } ∧
          (io = false → v = r ∧ h3 = h2) ∧
          (io = true → ∃ p, v = .ptr p ∧ PairAt h3 p r a ∧ Grew 3 h2 h3)) := by
  constructor
  · intro num hn hio hc hr
    obtain ⟨p, e, rfl, m1, m2, -, -, he⟩ := hc
    have hl : isLast (num + 1) io = false := by
      cases io
      · have := hio rfl; simp [isLast]; omega
      · simp [isLast]
    obtain ⟨nx, l, en, hx, hcall⟩ := callF_ok ext arity o arity io nm hi (num + 1) ⟨hn, by simp⟩ e (.int 0) a h
    obtain rfl : nx = nm num := hx hl
    simp only [hl, hd, Bool.false_eq_true, if_false, if_true] at hcall
    obtain ⟨l', h', c', e1, e2, e3, -, e5, e6⟩ := makeClo_ok ext arity (nm num) l
      { h with args := passArgs o.np [e, a] h.args } e a as en.env en.arg (he.args _) hr
    refine ⟨c', h', ?_, e6, e5⟩
    simp only [applyDirect, rd, Nat.add_zero, m1, m2, hcall, e1]
    exact final_direct ext arity o hd _ l' h' c' e3
  · intro hc hlen
    obtain ⟨p, e, rfl, m1, m2, -, -, he⟩ := hc
    have hl : isLast (if io then 0 else 1) io = true := by cases io <;> simp [isLast]
    have hh : Has arity io (if io then 0 else 1) := by
      cases io
      · exact ⟨hpos rfl, by simp⟩
      · exact ⟨by simp, by simp⟩
    obtain ⟨nx, l, en, -, hcall⟩ := callF_ok ext arity o arity io nm hi _ hh e (.int 0) a h
    simp only [hl, hd, if_true] at hcall
    obtain ⟨l', k1, a1, ex⟩ := callExtern_ok ext arity io { h with args := passArgs o.np [e, a] h.args } e a l as
      (he.args _) hlen en.env en.arg
    have happ : applyDirect ext arity o.np (curriedFns o arity io nm arity) (.ptr p) a h =
        execF ext arity ((callExtern arity io).2 ++ final o (callExtern arity io).1) l
          { h with args := passArgs o.np [e, a] h.args } := by
      simp only [applyDirect, rd, Nat.add_zero, m1, m2, hcall]
    refine ⟨{ h with args := passArgs o.np [e, a] h.args }, ⟨rfl, rfl, rfl, rfl, rfl, rfl⟩, fun r h2 hsome hr => ?_⟩
    rw [happ, ex, hsome]
    simp only
    cases io
    · refine ⟨r, h2, ?_, fun _ => ⟨rfl, rfl⟩, by simp⟩
      exact final_direct ext arity o hd _ _ h2 r (by simp [callExtern, Loc.put])
    · have hr := hr rfl
      refine ⟨.ptr (h2.alloc + 1), blk h2 r a, ?_, by simp, fun _ => ⟨h2.alloc + 1, rfl, ⟨?_, ?_, ?_⟩, grew_blk h2 r a hr⟩⟩
      · simp only [if_true]
        rw [block_ok ext arity .pair (.var .res) (.var .arg) r a _ h2 _ (fun c h' => by simp [evalF, Loc.put])
          (fun c h' => by simp [evalF, Loc.put, a1]) hr]
        exact final_direct ext arity o hd _ _ _ _ (by simp [callExtern, Loc.put])
      · exact blk_0 h2 r a
      · exact blk_1 h2 r a
      · exact blk_2 h2 r a

/-- So a foreign function cannot be called from code compiled in direct style: compiled code assigns the value of the call,
and no generated function returns one, for any closure, argument, state and C function. -/
theorem C61_direct_refuted (ext : Ext) (n : Nat) (o : FOpts) (arity : Nat) (io : Bool) (nm : Nat → Var)
    (h : Th) (c a : CVal) (l l' : CGen.Loc) (x : Var) :
    afterCall l x ((applyDirect ext n o.np (curriedFns o arity io nm arity) c a h).asCall l') = .ub := by
  generalize ho : applyDirect ext n o.np (curriedFns o arity io nm arity) c a h = out
  have hv : ∀ c' h', out ≠ .ret c' h' := by
    intro c' h' he
    rw [he] at ho
    unfold applyDirect at ho
    split at ho
    · exact callF_void _ _ _ _ _ _ _ _ _ _ _ _ ho
    · cases ho
  cases out with
  | done h' => rfl
  | ret c' h' => exact absurd rfl (hv c' h')
  | cont f cs h' => rfl
  | ub => rfl

/-- The generated functions do not check for free memory: with fewer than three free words, an application before the last
is undefined. -/
theorem C61_room_refuted (ext : Ext) (n : Nat) (o : FOpts) (hd : o.direct = false) (arity : Nat) (io : Bool)
    (nm : Nat → Var) (hi : ∀ i j, i ≤ arity → j ≤ arity → nm i = nm j → i = j) (num : Nat) (hn : num + 1 ≤ arity)
    (hio : io = false → 0 < num) (h : Th) (k c a : CVal) (as : List CVal) (hc : FClo h (nm (num + 1)) as c)
    (hr : h.limit < h.alloc + 3) :
    applyCps ext n o.np (curriedFns o arity io nm arity) k c a h = .ub := by
  obtain ⟨p, e, rfl, m1, m2, -, -, he⟩ := hc
  have hl : isLast (num + 1) io = false := by
    cases io
    · have := hio rfl; simp [isLast]; omega
    · simp [isLast]
  obtain ⟨nx, l, en, hx, hcall⟩ := callF_ok ext n o arity io nm hi (num + 1) ⟨hn, by simp⟩ e k a h
  simp only [hl, hd, Bool.false_eq_true, if_false] at hcall
  simp only [applyCps, rd, Nat.add_zero, m1, m2, hcall, makeClo, List.append_assoc]
  exact block_ub ext n _ _ _ _ _ _ hr

/-- A foreign constant that is not in `IO` has arity 0; the generated function calls the C function, declared without
parameters, with one argument. -/
theorem C61_nullary_refuted (ext : Ext) (o : FOpts) (hd : o.direct = false) (nm : Nat → Var) (h : Th) (k c a : CVal)
    (hc : FClo h (nm 0) [] c) :
    applyCps ext 0 o.np (curriedFns o 0 false nm 0) k c a h = .ub := by
  obtain ⟨p, e, rfl, m1, m2, -, -, he⟩ := hc
  obtain ⟨nx, l, en, -, hcall⟩ := callF_ok ext 0 o 0 false nm (by omega) 0 ⟨by omega, by simp⟩ e k a h
  simp only [isLast, hd, Bool.false_eq_true, if_false, if_true, beq_self_eq_true, Bool.true_or] at hcall
  simp only [applyCps, rd, Nat.add_zero, m1, m2, hcall, callExtern, Bool.false_eq_true, if_false, listToZero,
    Nat.zero_sub, List.map_nil, List.nil_append, List.map_cons, List.cons_append, execF, evalFs, evalF, en.arg, List.length_cons,
    List.length_nil]
  rfl

/-- The continuation is kept in a C variable while the C function runs, which the collector does not know: when the C
function collects and the old place of the continuation is no longer readable, what follows is undefined. -/
theorem C61_collect_refuted (ext : Ext) (o : FOpts) (hd : o.direct = false) (arity : Nat)
    (nm : Nat → Var) (hi : ∀ i j, i ≤ arity → j ≤ arity → nm i = nm j → i = j) (hpos : 0 < arity)
    (h : Th) (p : Nat) (c a : CVal) (as : List CVal) (hc : FClo h (nm 1) as c) (hlen : as.length + 1 = arity)
    (hext : ∀ h1, SameBut h h1 → ∃ r h2, ext (as ++ [a]) h1 = some (r, h2) ∧ h2.mem p = none ∧ h2.mem (p + 1) = none) :
    applyCps ext arity o.np (curriedFns o arity false nm arity) (.ptr p) c a h = .ub := by
  obtain ⟨q, e, rfl, m1, m2, -, -, he⟩ := hc
  obtain ⟨nx, l, en, -, hcall⟩ := callF_ok ext arity o arity false nm hi 1 ⟨hpos, by simp⟩ e (.ptr p) a h
  have hl : isLast 1 false = true := rfl
  simp only [hl, hd, Bool.false_eq_true, if_false, if_true] at hcall
  obtain ⟨l', k1, a1, ex⟩ := callExtern_ok ext arity false { h with args := passArgs o.np [e, .ptr p, a] h.args } e a l as
    (he.args _) (by simpa using hlen) en.env en.arg
  obtain ⟨r, h2, x1, x2, x3⟩ := hext { h with args := passArgs o.np [e, .ptr p, a] h.args } ⟨rfl, rfl, rfl, rfl, rfl, rfl⟩
  have kk : l' .k = some (.ptr p) := by rw [k1, en.k hd]
  simp only [applyCps, rd, Nat.add_zero, m1, m2, hcall]
  rw [ex]
  simp only [Bool.false_eq_true, if_false, x1, List.nil_append, final, hd]
  match hnp : o.np with
  | 0 => simp [execF, evalF, Loc.put, kk, rd, x3]
  | 1 => simp [execF, evalF, evalFs, Loc.put, kk, rd, x2, x3, callExtern]
  | j + 2 => simp [execF, evalF, evalFs, Loc.put, kk, rd, x2, x3, callExtern]

/-! ## A concrete case -/

/-- A function of two arguments in `IO`: `nat -> nat -> IO nat`. -/
def tyEx : FTy := .prod (.prod .io)

/-- The closure at 100, a continuation at 200, free memory between 0 and 50. -/
def stEx : Th where
  mem a := match a with
    | 100 => some (.fn 12) | 101 => some (.int 1) | 200 => some (.fn 5) | 201 => some (.int 7) | _ => none
  alloc := 0
  limit := 50
  nalloc := 0
  args _ := none
  fp := none
  frames _ := ⟨0, 0, none, fun _ => none⟩

/-- A C function that returns its first argument. -/
def extEx : Ext := fun cs h => cs.head?.map (·, h)

example : FClo stEx (10 + tyEx.args.1) [] (.ptr 100) :=
  (C61_closure ⟨false, 1⟩ tyEx (10 + ·) stEx 100 (by intro i hi; match i, hi with | 0, _ => rfl | 1, _ => rfl)
    (Or.inr (by decide)) (Or.inr (by decide))).1

example : ∃ h1 m, Grew m stEx h1 ∧ m ≤ 12 ∧ ∀ r h2, extEx [.int 3, .int 5] h1 = some (r, h2) → KIs h2 (.ptr 200) (.fn 5) (.int 7) →
    h2.alloc + 3 ≤ h2.limit → ∃ p h3, applyAll extEx 2 1 (oneField ⟨false, 1⟩ tyEx (10 + ·)).1 (.ptr 200) (.ptr 100)
      [.int 3, .int 5, .int 9] stEx = contWith 1 (.fn 5) (.int 7) (.ptr p) h3 ∧ PairAt h3 p r (.int 9) := by
  obtain ⟨h1, m, g, hm, -, hs⟩ := C61_all_partial extEx ⟨false, 1⟩ rfl 2 true (10 + ·) (fun _ _ _ _ h => Nat.add_left_cancel h) (.ptr 200) (.fn 5) (.int 7)
    (.int 9) [.int 3, .int 5] stEx (.ptr 100) [] 2
    ⟨100, .int 1, rfl, rfl, rfl, Or.inr (by decide), Or.inr (by decide), True.intro⟩ rfl (by simp) rfl
    ⟨200, rfl, rfl, rfl, Or.inr (by decide), Or.inr (by decide)⟩ (by decide)
  refine ⟨h1, m, g, hm, fun r h2 h3 h4 h5 => ?_⟩
  obtain ⟨v, h3', e1, -, e2⟩ := hs r h2 h3 h4 (fun _ => h5)
  obtain ⟨p, rfl, hp, -⟩ := e2 rfl
  exact ⟨p, h3', e1, hp⟩

end CGen.Ffi
