import Verif.Runtime.AllocModel

/-!
# C22, C48, C50
-/

namespace RT

/-! ## C50 -/

/-- `mk_float`, `mk_C0`, `mk_C1`, `mk_gmp_int`: from every nursery state the two words fit below the limit, the block has
the given header and field, and nothing else is touched after the reservation. -/
theorem C50_mk_block {gc : St → Nat → St} (hgc : GcOK gc) (hd : Nat) (hhd : hd < 2^64) (s : St) (x : Nat) (hx : x < 2^64) :
    ∃ s', mkBlock1 hd gc s x = some ((reserve gc s 2).alloc + 8, s') ∧
      getWord s'.mem (reserve gc s 2).alloc = hd ∧ getWord s'.mem ((reserve gc s 2).alloc + 8) = x ∧
      s'.alloc = (reserve gc s 2).alloc + 16 ∧ s'.alloc ≤ s'.limit ∧
      ∀ a, a < (reserve gc s 2).alloc ∨ s'.alloc ≤ a → s'.mem a = (reserve gc s 2).mem a := by
  have hroom := reserve_room hgc s 2
  generalize hr : reserve gc s 2 = r at *
  obtain ⟨m1, e1, g1, o1⟩ := putWord_ok r r.alloc hd hhd (le_refl _) (by omega)
  obtain ⟨m2, e2, g2, o2⟩ := putWord_ok { r with mem := m1 } (r.alloc + 8) x hx (by show r.alloc ≤ _; omega)
    (by show _ ≤ r.limit; omega)
  refine ⟨{ r with mem := m2, alloc := r.alloc + 16 }, ?_, ?_, g2, rfl, by show r.alloc + 16 ≤ r.limit; omega, ?_⟩
  · unfold mkBlock1
    simp only [hr, e1, Option.bind_some, e2]
  · rw [← g1]
    apply getWord_congr
    intro a h1 h2
    exact o2 a (by omega)
  · intro a ha
    change a < r.alloc ∨ r.alloc + 16 ≤ a at ha
    show m2 a = _
    rw [o2 a (by omega)]
    exact o1 a (by omega)

theorem C50_mk_float {gc : St → Nat → St} (hgc : GcOK gc) (s : St) (x : Nat) (hx : x < 2^64) :
    ∃ s' p, mkFloat gc s x = some (p, s') ∧ getWord s'.mem (p - 8) = 1024 + 253 ∧ getWord s'.mem p = x ∧
      s'.alloc ≤ s'.limit :=
  let ⟨s', h1, h2, h3, _, h5, _⟩ := C50_mk_block hgc 1277 (by norm_num) s x hx
  ⟨s', _, h1, by simpa using h2, h3, h5⟩

example : ∃ s' p, mkFloat (fun s n => { s with alloc := 800, limit := 800 + 8 * n }) ⟨fun _ => 5, 96, 96⟩
    0x3FF0000000000000 = some (p, s') :=
  let ⟨s', p, h, _⟩ := C50_mk_float (gc := fun s n => { s with alloc := 800, limit := 800 + 8 * n })
    (fun _ _ => le_refl _) ⟨fun _ => 5, 96, 96⟩ 0x3FF0000000000000 (by norm_num)
  ⟨s', p, h⟩

/-- `mk_pair` (results of `mulc`, `diveucl`, `diveucl_21`, `frshiftexp`) is right when three words are free … -/
theorem C50_mk_pair_partial (s : St) (x y : Nat) (hx : x < 2^64) (hy : y < 2^64) (hroom : s.alloc + 24 ≤ s.limit) :
    ∃ s', mkPair s x y = some (s.alloc + 8, s') ∧ getWord s'.mem s.alloc = 2048 ∧
      getWord s'.mem (s.alloc + 8) = x ∧ getWord s'.mem (s.alloc + 16) = y ∧ s'.alloc ≤ s'.limit := by
  obtain ⟨m1, e1, g1, o1⟩ := putWord_ok s s.alloc 2048 (by norm_num) (le_refl _) (by omega)
  obtain ⟨m2, e2, g2, o2⟩ := putWord_ok { s with mem := m1 } (s.alloc + 8) x hx (by show s.alloc ≤ _; omega)
    (by show _ ≤ s.limit; omega)
  obtain ⟨m3, e3, g3, o3⟩ := putWord_ok { s with mem := m2 } (s.alloc + 16) y hy (by show s.alloc ≤ _; omega)
    (by show _ ≤ s.limit; omega)
  refine ⟨{ s with mem := m3, alloc := s.alloc + 24 }, ?_, ?_, ?_, g3, hroom⟩
  · unfold mkPair
    simp only [e1, Option.bind_some, e2, e3]
  · rw [← g1]
    apply getWord_congr
    intro a h1 h2
    show m3 a = _
    rw [o3 a (by omega)]
    exact o2 a (by omega)
  · rw [← g2]
    apply getWord_congr
    intro a h1 h2
    exact o3 a (by omega)

theorem putBytes_short (bs : List Nat) : ∀ (s : St) (a : Nat), s.limit < a + bs.length → putBytes s a bs = none ∨ bs = [] := by
  induction bs with
  | nil => intro s a _; exact Or.inr rfl
  | cons b bs ih =>
    intro s a h
    left
    simp only [List.length_cons] at h
    unfold putBytes putByte
    split_ifs with c
    · rw [Option.bind_some]
      rcases ih { s with mem := upd s.mem a (b % 256) } (a + 1) (by show s.limit < _; omega) with h' | h'
      · exact h'
      · subst h'; simp at h; omega
    · rfl

theorem putWord_short (s : St) (a w : Nat) (h : s.limit < a + 8) : putWord s a w = none := by
  rcases putBytes_short (wordBytes w) s a (by simpa [wordBytes] using h) with h' | h'
  · exact h'
  · simp [wordBytes] at h'

/-- … and writes past the limit in every state with fewer than three free words. -/
theorem C50_mk_pair_refuted (s : St) (x y : Nat) (hroom : s.limit < s.alloc + 24) : mkPair s x y = none := by
  unfold mkPair
  rcases h1 : putWord s s.alloc 2048 with _ | s1
  · rfl
  have k : ∀ (t t' : St) (a w : Nat), putWord t a w = some t' → t'.alloc = t.alloc ∧ t'.limit = t.limit := by
    intro t t' a w
    unfold putWord
    generalize wordBytes w = bs
    induction bs generalizing t a with
    | nil => intro h; cases h; exact ⟨rfl, rfl⟩
    | cons b bs ih =>
      intro h
      unfold putBytes putByte at h
      split_ifs at h
      · rw [Option.bind_some] at h
        exact ih { t with mem := upd t.mem a (b % 256) } (a + 1) h
      · cases h
  obtain ⟨a1, l1⟩ := k _ _ _ _ h1
  rw [Option.bind_some]
  rcases h2 : putWord s1 (s1.alloc + 8) x with _ | s2
  · rfl
  obtain ⟨a2, l2⟩ := k _ _ _ _ h2
  rw [Option.bind_some, putWord_short s2 (s2.alloc + 16) y (by omega)]
  rfl

/-- The allocator given to GMP: the block fits, is cleared and has a no-scan header … -/
theorem C50_gmp_alloc_partial {gc : St → Nat → St} (hgc : GcOK gc) (s : St) (size : Nat) (hs : size < 2^56) :
    ∃ s' p, allocateFunction gc s size = some (p, s') ∧ p + size ≤ s'.limit ∧
      getWord s'.mem (p - 8) % 256 = 251 ∧ ∀ i, i < size → s'.mem (p + i) = 0 := by
  obtain ⟨words, hw⟩ : ∃ words, words = if size % 8 = 0 then size / 8 + 1 else size / 8 + 2 := ⟨_, rfl⟩
  have hw1 : 1 ≤ words ∧ size ≤ 8 * (words - 1) ∧ words < 2^54 := by
    rw [hw]; split_ifs <;> omega
  have hroom := reserve_room hgc s words
  generalize hr : reserve gc s words = r at *
  obtain ⟨m1, e1, g1, o1⟩ := putWord_ok r r.alloc ((words - 1) * 1024 + 251) (by omega) (le_refl _) (by omega)
  obtain ⟨m2, e2, g2, o2⟩ := putBytes_ok { r with mem := m1 } (r.alloc + 8) (List.replicate (8 * (words - 1)) 0)
    (by show r.alloc ≤ _; omega) (by rw [List.length_replicate]; show _ ≤ r.limit; omega)
  refine ⟨{ r with mem := m2 }, r.alloc + 8, ?_, by show _ ≤ r.limit; omega, ?_, ?_⟩
  · unfold allocateFunction
    simp only
    rw [← hw, hr, if_neg (by omega), e1, Option.bind_some]
    show ((putBytes { r with mem := m1 } (r.alloc + 8) _).bind _) = _
    rw [e2]; rfl
  · rw [Nat.add_sub_cancel]
    have : getWord m2 r.alloc = getWord m1 r.alloc := getWord_congr fun a h1 h2 => o2 a (by omega)
    show getWord m2 r.alloc % 256 = 251
    rw [this, g1]; omega
  · intro i hi
    show m2 _ = 0
    rw [g2 i (by rw [List.length_replicate]; omega), List.getElem_replicate]

/-- … but `alloc` is not advanced, so two successive allocations of the same size return the same address. -/
theorem C50_gmp_alloc_refuted {gc : St → Nat → St} (s : St) (size : Nat) (s1 s2 : St) (p1 p2 : Nat)
    (h1 : allocateFunction gc s size = some (p1, s1)) (h2 : allocateFunction gc s1 size = some (p2, s2)) : p1 = p2 := by
  have bounds : ∀ (t t' : St) (p : Nat), allocateFunction gc t size = some (p, t') →
      t'.alloc + 8 = p ∧ t'.alloc = (reserve gc t (if size % 8 = 0 then size / 8 + 1 else size / 8 + 2)).alloc ∧
      t'.limit = (reserve gc t (if size % 8 = 0 then size / 8 + 1 else size / 8 + 2)).limit ∧
      t'.alloc + 8 * (if size % 8 = 0 then size / 8 + 1 else size / 8 + 2) ≤ t'.limit := by
    have kb : ∀ (bs : List Nat) (t t' : St) (a : Nat), putBytes t a bs = some t' →
        t'.alloc = t.alloc ∧ t'.limit = t.limit := by
      intro bs
      induction bs with
      | nil => intro t t' a h; cases h; exact ⟨rfl, rfl⟩
      | cons b bs ih =>
        intro t t' a h
        unfold putBytes putByte at h
        split_ifs at h
        · rw [Option.bind_some] at h
          exact ih { t with mem := upd t.mem a (b % 256) } t' (a + 1) h
        · cases h
    intro t t' p h
    unfold allocateFunction at h
    simp only at h
    generalize (if size % 8 = 0 then size / 8 + 1 else size / 8 + 2) = words at *
    by_cases c : (reserve gc t words).alloc + 8 * words ≤ (reserve gc t words).limit
    · rw [if_neg (not_not.2 c), Option.bind_eq_some_iff] at h
      obtain ⟨u, e1, h⟩ := h
      rw [Option.bind_eq_some_iff] at h
      obtain ⟨v, e2, h⟩ := h
      simp only [Option.some.injEq, Prod.mk.injEq] at h
      obtain ⟨h1, h2⟩ := h
      obtain ⟨a1, l1⟩ := kb _ _ _ _ e1
      obtain ⟨a2, l2⟩ := kb _ _ _ _ e2
      subst h2
      omega
    · rw [if_pos c] at h; cases h
  obtain ⟨a1, b1, c1, d1⟩ := bounds _ _ _ h1
  obtain ⟨a2, b2, c2, d2⟩ := bounds _ _ _ h2
  have : reserve gc s1 (if size % 8 = 0 then size / 8 + 1 else size / 8 + 2) = s1 := if_pos d1
  rw [this] at b2
  omega

/-! ## C22 -/

/-- A Rocq byte string in memory: `EmptyString` is an unboxed (odd) word; `String c s` a block of two fields, the
tagged byte and the rest. -/
inductive IsCoqString (m : Nat → Nat) : Nat → List Nat → Prop where
  | empty (p : Nat) (h : p % 2 = 1) : IsCoqString m p []
  | cons (p : Nat) (c : Nat) (cs : List Nat) (h : p % 2 = 0) (hc : c < 256) (hf : m p = 2 * c + 1)
      (ht : IsCoqString m (m (p + 8)) cs) : IsCoqString m p (c :: cs)

theorem coqStrlen_ok {m : Nat → Nat} {p : Nat} {bs : List Nat} (h : IsCoqString m p bs) :
    ∀ fuel len, bs.length < fuel → coqStrlen m fuel p len = some (len + bs.length) := by
  induction h with
  | empty p h =>
    intro fuel len hf
    obtain ⟨f, rfl⟩ : ∃ f, fuel = f + 1 := ⟨fuel - 1, by simp at hf; omega⟩
    rw [coqStrlen, if_neg (by omega)]; rfl
  | cons p c cs h hc hf ht ih =>
    intro fuel len hl
    simp only [List.length_cons] at hl ⊢
    obtain ⟨f, rfl⟩ : ∃ f, fuel = f + 1 := ⟨fuel - 1, by omega⟩
    rw [coqStrlen, if_pos h, ih f (len + 1) (by omega)]
    congr 1; omega

theorem coqCopy_ok {m : Nat → Nat} {p : Nat} {bs : List Nat} (h : IsCoqString m p bs) :
    ∀ (fuel : Nat) (done rest : List Nat), bs.length < fuel → rest.length = bs.length + 1 →
      coqCopy m (done.length + bs.length + 1) fuel p done.length (done ++ rest) = some (done ++ bs ++ [0]) := by
  induction h with
  | empty p h =>
    intro fuel done rest hf hr
    obtain ⟨f, rfl⟩ : ∃ f, fuel = f + 1 := ⟨fuel - 1, by simp at hf; omega⟩
    rw [coqCopy, if_neg (by omega), if_pos (by simp)]
    match rest, hr with
    | [r], _ => simp
  | cons p c cs h hc hf ht ih =>
    intro fuel done rest hl hr
    simp only [List.length_cons] at hl hr ⊢
    obtain ⟨f, rfl⟩ : ∃ f, fuel = f + 1 := ⟨fuel - 1, by omega⟩
    rw [coqCopy, if_pos h, if_pos (by omega), hf]
    match rest, hr with
    | r :: rest, hr =>
      have := ih f (done ++ [c]) rest (by omega) (by simpa using hr)
      simp only [List.length_append, List.length_cons, List.length_nil, Nat.zero_add] at this
      have e : (done ++ r :: rest).set done.length ((2 * c + 1) / 2 % 256) = done ++ [c] ++ rest := by
        rw [show (2 * c + 1) / 2 % 256 = c by omega]
        simp
      rw [e, show done.length + (cs.length + 1) + 1 = done.length + 1 + cs.length + 1 by omega, this]
      simp

/-- For every Rocq byte string in memory, if `malloc` succeeds, `string_of_coq_string` returns a buffer of exactly
length + 1 bytes holding the bytes followed by a zero; every store is inside the buffer. -/
theorem C22_string_of_coq_string {m : Nat → Nat} {p : Nat} {bs : List Nat} (h : IsCoqString m p bs)
    (malloc : Nat → Option (List Nat)) (buf : List Nat) (hm : malloc (bs.length + 1) = some buf)
    (hb : buf.length = bs.length + 1) (fuel : Nat) (hf : bs.length < fuel) :
    stringOfCoqString malloc m fuel p = some (bs ++ [0]) := by
  unfold stringOfCoqString
  rw [coqStrlen_ok h fuel 0 hf, Option.bind_some, Nat.zero_add, hm, Option.bind_some]
  have := coqCopy_ok h fuel [] buf hf hb
  simpa using this

/-- A string without zero bytes is recovered from the C string: the first zero is the terminator. -/
theorem C22_round_trip {m : Nat → Nat} {p : Nat} {bs : List Nat} (h : IsCoqString m p bs) (hz : 0 ∉ bs)
    (malloc : Nat → Option (List Nat)) (buf : List Nat) (hm : malloc (bs.length + 1) = some buf)
    (hb : buf.length = bs.length + 1) (fuel : Nat) (hf : bs.length < fuel) :
    (stringOfCoqString malloc m fuel p).map (List.takeWhile (· ≠ 0)) = some bs := by
  rw [C22_string_of_coq_string h malloc buf hm hb fuel hf]
  simp only [Option.map_some, Option.some.injEq]
  rw [List.takeWhile_append_of_pos]
  · simp
  · intro a ha
    simp only [ne_eq, decide_eq_true_eq]
    rintro rfl
    exact hz ha

/-- When `malloc` fails the code goes on to write through the null pointer. -/
theorem C22_malloc_failure_refuted {m : Nat → Nat} {p : Nat} {bs : List Nat} (h : IsCoqString m p bs) (fuel : Nat)
    (hf : bs.length < fuel) : stringOfCoqString (fun _ => none) m fuel p = none := by
  unfold stringOfCoqString
  rw [coqStrlen_ok h fuel 0 hf]; rfl

/-- "Hi": two blocks at 16 and 40. -/
def hiMem : Nat → Nat := fun a => if a = 16 then 145 else if a = 24 then 40 else if a = 40 then 211 else 1

theorem hi_ok : IsCoqString hiMem 16 [72, 105] :=
  .cons 16 72 [105] (by decide) (by decide) (by decide)
    (.cons 40 105 [] (by decide) (by decide) (by decide) (.empty 1 (by decide)))

example : stringOfCoqString (fun n => some (List.replicate n 255)) hiMem 10 16 = some [72, 105, 0] :=
  C22_string_of_coq_string hi_ok _ (List.replicate 3 255) rfl rfl 10 (by decide)

/-! ## C48 -/

/-- `get_boxed_ordinal` returns the constructor's ordinal for every header `arity * 1024 + ordinal`. -/
theorem C48_boxed (m : Nat → Nat) (v arity ord : Nat) (hord : ord < 256) (h : m (v - 8) = arity * 1024 + ord) :
    getBoxedOrdinal m v = ord := by
  unfold getBoxedOrdinal; rw [h]; omega

/-- `get_unboxed_ordinal` tags its argument instead of untagging it: for every nullary constructor, represented by
`2 * ord + 1`, it returns `4 * ord + 3`, which is never the ordinal (nor its tagged form). -/
theorem C48_unboxed_refuted (ord : Nat) (h : ord < 2^61) :
    getUnboxedOrdinal (2 * ord + 1) = 4 * ord + 3 ∧ getUnboxedOrdinal (2 * ord + 1) ≠ ord ∧
      getUnboxedOrdinal (2 * ord + 1) ≠ 2 * ord + 1 := by
  have h1 : getUnboxedOrdinal (2 * ord + 1) = 4 * ord + 3 := by
    unfold getUnboxedOrdinal
    rw [Nat.mod_eq_of_lt (by omega)]; omega
  rw [h1]
  exact ⟨rfl, by omega, by omega⟩

example : getBoxedOrdinal (fun _ => 2 * 1024 + 1) 16 = 1 := C48_boxed _ _ 2 1 (by decide) rfl

end RT
