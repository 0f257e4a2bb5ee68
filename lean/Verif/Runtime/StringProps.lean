import Verif.Runtime.StringLemmas

/-!
# C18, C19: string literals and string primitives
-/

namespace RT

/-! ## C18 -/

/-- The code emitted for a string literal, run with enough room, leaves at the returned address a string block holding
exactly the bytes of the literal, ends below the new allocation pointer, and touches nothing else. -/
theorem C18_literal (s : St) (bs : List Nat) (hb : Bytes bs) (hlen : bs.length < 2^56)
    (hroom : s.alloc + 8 * (bs.length / 8 + 2) ≤ s.limit) :
    ∃ s', literal s bs = some (s.alloc + 8, s') ∧ IsString s'.mem (s.alloc + 8) bs ∧
      s'.alloc = s.alloc + 8 + 8 * (bs.length / 8 + 1) ∧ s'.limit = s.limit ∧
      ∀ x, x < s.alloc ∨ s'.alloc ≤ x → s'.mem x = s.mem x := by
  obtain ⟨m1, e1, g1, o1⟩ := putWord_ok s s.alloc ((bs.length / 8 + 1) * 1024 + 252) (by omega) (le_refl _) (by omega)
  obtain ⟨m2, e2, B, o2⟩ := encode_ok bs { s with mem := m1 } (s.alloc + 8) hb (by show s.alloc ≤ _; omega)
    (by show _ ≤ s.limit; omega)
  refine ⟨{ s with mem := m2, alloc := s.alloc + 8 * (bs.length / 8 + 1 + 1) }, ?_, ⟨?_, B.bytes, B.padding, B.last⟩,
    ?_, rfl, ?_⟩
  · unfold literal
    simp only [e1, Option.bind_some]
    rw [e2]; rfl
  · rw [Nat.add_sub_cancel]
    show getWord m2 s.alloc = _
    rw [← g1]
    apply getWord_congr
    intro x h1 h2
    exact o2 x (by omega)
  · show s.alloc + 8 * (bs.length / 8 + 1 + 1) = _; omega
  · intro x hx
    show m2 x = _
    change x < s.alloc ∨ s.alloc + 8 * (bs.length / 8 + 1 + 1) ≤ x at hx
    rw [o2 x (by omega)]
    exact o1 x (by omega)

/-- Reading a string block: the runtime's length primitive returns the length, tagged. -/
theorem C18_length {m : Mem} {p : Nat} {bs : List Nat} (h : IsString m p bs) (hl : bs.length < 2^62) :
    strLength m p = 2 * bs.length + 1 := by
  unfold strLength valLongI; rw [strlen_ok h]; omega

/-- The header of a string block has the no-scan tag 252 (≥ 251), so the collector copies it without scanning. -/
theorem C18_header {m : Mem} {p : Nat} {bs : List Nat} (h : IsString m p bs) :
    getWord m (p - 8) % 256 = 252 ∧ getWord m (p - 8) / 1024 = bs.length / 8 + 1 := by
  rw [h.header]; omega

/-- A string is determined by its memory block. -/
theorem C18_injective {m : Mem} {p : Nat} {bs bs' : List Nat} (h : IsString m p bs) (h' : IsString m p bs') :
    bs = bs' := by
  have hl : bs.length = bs'.length := by
    have a := strlen_ok h
    have b := strlen_ok h'
    omega
  apply List.ext_getElem hl
  intro i h1 h2
  rw [← h.bytes i h1, ← h'.bytes i h2]

-- "Hello, world" (12 bytes, two words) at address 1000
example : ∃ s', literal ⟨fun _ => 77, 992, 2000⟩ [72, 101, 108, 108, 111, 44, 32, 119, 111, 114, 108, 100] =
    some (1000, s') ∧ IsString s'.mem 1000 [72, 101, 108, 108, 111, 44, 32, 119, 111, 114, 108, 100] :=
  let ⟨s', h, h', _⟩ := C18_literal ⟨fun _ => 77, 992, 2000⟩ [72, 101, 108, 108, 111, 44, 32, 119, 111, 114, 108, 100]
    (by decide) (by decide) (by decide)
  ⟨s', h, h'⟩

/-! ## C19: reading -/

/-- `get` returns the byte at an index inside the string, provided it is below 128. -/
theorem C19_get_partial {m : Mem} {p : Nat} {bs : List Nat} (h : IsString m p bs) (i : Nat) (hi : i < bs.length)
    (hb : bs[i] < 128) : strGet m p (2 * i + 1) = 2 * bs[i] + 1 := by
  unfold strGet
  rw [show (2 * i + 1) / 2 = i by omega, h.bytes i hi]
  unfold schar valLongI
  rw [if_pos hb]; omega

/-- For every byte of 128 or more, `get` does not return it: `char` is signed, the result is a negative number. -/
theorem C19_get_refuted {m : Mem} {p : Nat} {bs : List Nat} (h : IsString m p bs) (i : Nat) (hi : i < bs.length)
    (hb : 128 ≤ bs[i]) (hb' : bs[i] < 256) :
    strGet m p (2 * i + 1) = 2^64 - 2 * (256 - bs[i]) + 1 ∧ strGet m p (2 * i + 1) ≠ 2 * bs[i] + 1 := by
  unfold strGet
  rw [show (2 * i + 1) / 2 = i by omega, h.bytes i hi]
  unfold schar valLongI
  rw [if_neg (by omega)]; omega

theorem cmpLoop_same (m : Mem) (x y : Nat) : ∀ (n i : Nat), (∀ k, k < i + n → m (x + k) = m (y + k)) →
    cmpLoop m x y i n = 0 := by
  intro n
  induction n with
  | zero => intro i _; rfl
  | succ n ih =>
    intro i h
    unfold cmpLoop
    simp only [h i (by omega), sub_self]
    rw [if_neg (by simp)]
    exact ih (i + 1) (fun k hk => h k (by omega))

/-- `compare` is wrong on every pair of equal strings: it returns the word 0 where the compiled constructor `Eq` is the
word 1 (0 is not even a tagged value: it would be followed as a pointer). -/
theorem C19_compare_refuted {m : Mem} {x y : Nat} {bs : List Nat} (hx : IsString m x bs) (hy : IsString m y bs) :
    strCompare m x y = 0 := by
  unfold strCompare
  rw [strlen_ok hx, strlen_ok hy]
  simp only [if_true, Int.toNat_natCast]
  rw [cmpLoop_same m x y bs.length 0]
  · rfl
  · intro k hk
    rw [hx.bytes k (by omega), hy.bytes k (by omega)]

/-- `compare` also orders strings of different lengths by length instead of lexicographically: for all strings whose
lengths differ, the answer depends on the lengths only. -/
theorem C19_compare_lengths_refuted {m : Mem} {x y : Nat} {bs cs : List Nat} (hx : IsString m x bs)
    (hy : IsString m y cs) (h : bs.length ≠ cs.length) :
    strCompare m x y = valLongI (bs.length - cs.length) := by
  unfold strCompare
  rw [strlen_ok hx, strlen_ok hy]
  rw [if_neg (by omega)]

/-- What is right in `compare`: strings of equal length that differ are told apart (the result is non-zero). -/
theorem C19_compare_partial {m : Mem} {x y : Nat} {bs cs : List Nat} (hx : IsString m x bs) (hy : IsString m y cs)
    (hbs : Bytes bs) (hcs : Bytes cs) (hl : bs.length = cs.length) : strCompare m x y = 0 ↔ bs = cs := by
  constructor
  · intro h
    unfold strCompare at h
    rw [strlen_ok hx, strlen_ok hy, if_pos (by omega)] at h
    have hs : ∀ a b : Nat, a < 256 → b < 256 → schar a - schar b = 0 → a = b := by
      intro a b _ _; unfold schar; split_ifs <;> omega
    have hrange : ∀ a b : Nat, a < 256 → b < 256 → -256 < schar a - schar b ∧ schar a - schar b < 256 := by
      intro a b _ _; unfold schar; split_ifs <;> omega
    have key : ∀ (n i : Nat), i + n = bs.length →
        ((-256 < cmpLoop m x y i n ∧ cmpLoop m x y i n < 256) ∧
          (cmpLoop m x y i n = 0 → ∀ k, i ≤ k → k < i + n → m (x + k) = m (y + k))) := by
      intro n
      induction n with
      | zero => intro i _; exact ⟨⟨by simp [cmpLoop], by simp [cmpLoop]⟩, fun _ k h1 h2 => by omega⟩
      | succ n ih =>
        intro i hi
        have b1 : m (x + i) < 256 := by rw [hx.bytes i (by omega)]; exact hbs _ (List.getElem_mem _)
        have b2 : m (y + i) < 256 := by rw [hy.bytes i (by omega)]; exact hcs _ (List.getElem_mem _)
        unfold cmpLoop
        by_cases c : schar (m (x + i)) - schar (m (y + i)) = 0
        · rw [if_neg (by simpa using c)]
          obtain ⟨r, z⟩ := ih (i + 1) (by omega)
          refine ⟨r, fun hz k h1 h2 => ?_⟩
          by_cases hk : k = i
          · subst hk; exact hs _ _ b1 b2 c
          · exact z hz k (by omega) (by omega)
        · rw [if_pos (by simpa using c)]
          exact ⟨hrange _ _ b1 b2, fun hz => absurd hz c⟩
    obtain ⟨r, z⟩ := key bs.length 0 (by omega)
    simp only [Int.toNat_natCast] at h
    have h0 : cmpLoop m x y 0 bs.length = 0 := by omega
    apply List.ext_getElem hl
    intro i h1 h2
    rw [← hx.bytes i h1, ← hy.bytes i h2]
    exact z h0 i (by omega) (by omega)
  · rintro rfl; exact C19_compare_refuted hx hy

/-! ## C19: building -/

/-- `mk_ocaml_string` (used for the results of `z_to_string`): for every C string shorter than `2^25 - 8` bytes and
every nursery state, the result is a string block with these bytes; nothing outside the block is written; the block ends
at the new allocation pointer and below the limit. -/
theorem C19_mk_ocaml_string {gc : St → Nat → St} (hgc : GcOK gc) (s : St) (str : List Nat) (hb : Bytes str)
    (hlen : str.length < 2^25 - 8) :
    ∃ s' p, mkOcamlString gc s str = some (p, s') ∧ IsString s'.mem p str ∧
      p = (reserve gc s (str.length / 8 + 2)).alloc + 8 ∧
      s'.alloc = p + 8 * (str.length / 8 + 1) ∧ s'.alloc ≤ s'.limit ∧
      ∀ x, x < p - 8 ∨ s'.alloc ≤ x → s'.mem x = (reserve gc s (str.length / 8 + 2)).mem x := by
  have hw : (str.length / 8 + 1) % 2^32 = str.length / 8 + 1 := Nat.mod_eq_of_lt (by omega)
  have hh : (str.length / 8 + 1) * 1024 % 2^32 = (str.length / 8 + 1) * 1024 := Nat.mod_eq_of_lt (by omega)
  have hroom := reserve_room hgc s (str.length / 8 + 1 + 1)
  obtain ⟨m, e, g, B, o⟩ := build_ok (reserve gc s (str.length / 8 + 1 + 1)) ((str.length / 8 + 1) * 1024 + 252)
    (str.length / 8 + 1) str hb (by omega) rfl hroom
  generalize hr : reserve gc s (str.length / 8 + 1 + 1) = r at *
  refine ⟨{ r with mem := m, alloc := r.alloc + 8 * (str.length / 8 + 1 + 1) }, r.alloc + 8, ?_, ⟨?_, B.bytes, B.padding,
    B.last⟩, rfl, ?_, hroom, ?_⟩
  · unfold mkOcamlString
    simp only
    rw [if_neg (by omega), hw, hr, if_neg (by omega), hh]
    rw [Option.bind_eq_some_iff] at e
    obtain ⟨s1, e1, e⟩ := e
    rw [Option.bind_eq_some_iff] at e
    obtain ⟨s2, e2, e3⟩ := e
    rw [e1, Option.bind_some, e2, Option.bind_some, e3, Option.bind_some]
  · rw [Nat.add_sub_cancel]; exact g
  · show r.alloc + 8 * (str.length / 8 + 1 + 1) = _; omega
  · intro x hx
    exact o x (by rcases hx with h | h <;> [left; right] <;> [omega; exact h])

-- hypotheses are met even by a full nursery, which makes the collector run
example : ∃ s' p, mkOcamlString (fun s n => { s with alloc := 800, limit := 800 + 8 * n }) ⟨fun _ => 5, 96, 96⟩
    [45, 49, 50] = some (p, s') ∧ IsString s'.mem p [45, 49, 50] :=
  let ⟨s', p, h, h', _⟩ := C19_mk_ocaml_string (gc := fun s n => { s with alloc := 800, limit := 800 + 8 * n })
    (fun _ _ => le_refl _) ⟨fun _ => 5, 96, 96⟩ [45, 49, 50] (by decide) (by decide)
  ⟨s', p, h, h'⟩

/-- For longer strings the 32-bit arithmetic of the header loses the block size, and the runtime reads back a different
length. (Stated for all lengths from `2^25 - 8` on for which the header does overflow: up to `2^31`.) -/
theorem C19_mk_ocaml_string_long_refuted {gc : St → Nat → St} (hgc : GcOK gc) (s : St) (str : List Nat)
    (hb : Bytes str) (h1 : 2^25 - 8 ≤ str.length) (h2 : str.length < 2^31) :
    ∃ s' p, mkOcamlString gc s str = some (p, s') ∧ ¬ IsString s'.mem p str := by
  have hw : (str.length / 8 + 1) % 2^32 = str.length / 8 + 1 := Nat.mod_eq_of_lt (by omega)
  have hroom := reserve_room hgc s (str.length / 8 + 1 + 1)
  obtain ⟨m, e, g, B, o⟩ := build_ok (reserve gc s (str.length / 8 + 1 + 1))
    ((str.length / 8 + 1) * 1024 % 2^32 + 252) (str.length / 8 + 1) str hb (by omega) rfl hroom
  generalize hr : reserve gc s (str.length / 8 + 1 + 1) = r at *
  refine ⟨{ r with mem := m, alloc := r.alloc + 8 * (str.length / 8 + 1 + 1) }, r.alloc + 8, ?_, ?_⟩
  · unfold mkOcamlString
    simp only
    rw [if_neg (by omega), hw, hr, if_neg (by omega)]
    rw [Option.bind_eq_some_iff] at e
    obtain ⟨s1, e1, e⟩ := e
    rw [Option.bind_eq_some_iff] at e
    obtain ⟨s2, e2, e3⟩ := e
    rw [e1, Option.bind_some, e2, Option.bind_some, e3, Option.bind_some]
  · intro hs
    have := hs.header
    rw [Nat.add_sub_cancel] at this
    change getWord m r.alloc = _ at this
    rw [g] at this
    omega

/-- `make`, `sub` and `cat` share one body. When there happens to be room for one word more than they ask for, the bytes
are right; but see `C19_body_overlap`. -/
theorem C19_body_partial {gc : St → Nat → St} (s : St) (len : Nat) (bytes : Mem → List Nat)
    (hroom : s.alloc + 8 * (len / 8 + 2) ≤ s.limit) (hlen : len < 2^31)
    (hb : Bytes (bytes s.mem)) (hl : (bytes s.mem).length = len)
    (hstable : ∀ m, (∀ x, x < s.alloc ∨ s.alloc + 8 ≤ x → m x = s.mem x) → bytes m = bytes s.mem) :
    ∃ s', mkBody gc s len bytes = some (s.alloc + 8, s') ∧ IsString s'.mem (s.alloc + 8) (bytes s.mem) ∧
      s'.alloc = s.alloc + 8 * (len / 8 + 1) ∧
      ∀ x, x < s.alloc ∨ s.alloc + 8 * (len / 8 + 2) ≤ x → s'.mem x = s.mem x := by
  have hres : reserve gc s (len / 8 + 1) = s := if_pos (by omega)
  obtain ⟨m, e, g, B, o⟩ := build_ok s ((len / 8 + 1) * 1024 + 252)
    (len / 8 + 1) (bytes s.mem) hb (by omega) (by rw [hl]) (by omega)
  rw [hl] at e
  refine ⟨{ s with mem := m, alloc := s.alloc + 8 * (len / 8 + 1) }, ?_, ⟨?_, B.bytes, B.padding, B.last⟩, rfl, ?_⟩
  · unfold mkBody
    simp only
    rw [if_neg (by omega), hres, if_neg (by omega)]
    obtain ⟨m1, e1, g1, o1⟩ := putWord_ok s s.alloc ((len / 8 + 1) * 1024 + 252) (by omega) (le_refl _) (by omega)
    rw [e1, Option.bind_some]
    rw [e1, Option.bind_some] at e
    change ((putBytes { s with mem := m1 } (s.alloc + 8) (bytes m1)).bind _) = _
    rw [hstable m1 o1]
    rw [Option.bind_eq_some_iff] at e
    obtain ⟨s2, e2, e3⟩ := e
    rw [e2, Option.bind_some, e3, Option.bind_some]
  · rw [Nat.add_sub_cancel, hl]; exact g
  · intro x hx
    exact o x (by rcases hx with h | h <;> [left; right] <;> [exact h; omega])

/-- … in every successful run the allocation pointer is left 8 bytes below the end of the block: the next
allocation overwrites the last word of the string (the one that encodes its length). -/
theorem C19_body_overlap {gc : St → Nat → St} (s : St) (len : Nat) (bytes : Mem → List Nat) (p : Nat) (s' : St)
    (h : mkBody gc s len bytes = some (p, s')) : s'.alloc + 8 = p + 8 * (len / 8 + 1) := by
  unfold mkBody at h
  simp only at h
  split_ifs at h
  simp only [Option.bind_eq_some_iff] at h
  obtain ⟨s1, e1, s2, e2, s3, e3, h⟩ := h
  simp only [Option.some.injEq, Prod.mk.injEq] at h
  obtain ⟨h1, h2⟩ := h
  rw [← h1, ← h2]
  show s3.alloc + 8 * (len / 8 + 1) + 8 = _
  omega

theorem putBytes_bounds : ∀ (bs : List Nat) (t : St) (a : Nat) (t' : St), putBytes t a bs = some t' →
    t'.alloc = t.alloc ∧ t'.limit = t.limit := by
  intro bs
  induction bs with
  | nil => intro t a t' h; cases h; exact ⟨rfl, rfl⟩
  | cons b bs ih =>
    intro t a t' h
    unfold putBytes putByte at h
    split_ifs at h
    · rw [Option.bind_some] at h
      exact ih { t with mem := upd t.mem a (b % 256) } (a + 1) t' h
    · cases h

/-- … and when the free space is exactly what was asked for, the last store goes past the limit of the nursery. -/
theorem C19_body_refuted (gc : St → Nat → St) (s : St) (len : Nat) (bytes : Mem → List Nat)
    (hroom : s.alloc + 8 * (len / 8 + 1) = s.limit) (hb : ∀ m, Bytes (bytes m)) (hl : ∀ m, (bytes m).length = len) :
    mkBody gc s len bytes = none := by
  unfold mkBody
  simp only
  have hres : reserve gc s (len / 8 + 1) = s := if_pos (by omega)
  rw [hres]
  by_cases h1 : 2^31 ≤ len
  · rw [if_pos h1]
  rw [if_neg h1, if_neg (by omega)]
  obtain ⟨m1, e1, g1, o1⟩ := putWord_ok s s.alloc ((len / 8 + 1) * 1024 + 252) (by omega) (le_refl _) (by omega)
  rw [e1, Option.bind_some]
  rcases hpb : putBytes { s with mem := m1 } (s.alloc + 8) (bytes m1) with _ | s2
  · rfl
  · rw [Option.bind_some]
    have hs2 := putBytes_bounds _ _ _ _ hpb
    have hpad : ∀ (fuel j : Nat) (t : St), t.alloc = s.alloc → t.limit = s.limit → j < 8 * (len / 8 + 1) →
        padLoop (len / 8 + 1) (s.alloc + 8) len fuel j t = none := by
      intro fuel
      induction fuel with
      | zero => intros; rfl
      | succ fuel ih =>
        intro j t ha hl hj
        unfold padLoop
        by_cases c : (j + 1) / 8 < len / 8 + 1
        · rw [if_pos c]
          unfold putByte
          by_cases c2 : t.alloc ≤ s.alloc + 8 + j ∧ s.alloc + 8 + j < t.limit
          · rw [if_pos c2, Option.bind_some]
            exact ih (j + 1) _ ha hl (by omega)
          · rw [if_neg c2]; rfl
        · rw [if_neg c]
          exact if_neg (by omega)
    rw [hs2.1, hpad _ _ _ hs2.1 hs2.2 (by omega)]
    rfl

/-- `make n c` makes a string of `2n+1` bytes (the tagged length is used as a length), each equal to the low byte of the
tagged character. -/
theorem C19_make_refuted {gc : St → Nat → St} (s : St) (n c : Nat) (hn : 2 * n + 1 < 2^31)
    (hroom : s.alloc + 8 * ((2 * n + 1) / 8 + 2) ≤ s.limit) :
    ∃ s', strMake gc s (2 * n + 1) (2 * c + 1) = some (s.alloc + 8, s') ∧
      IsString s'.mem (s.alloc + 8) (List.replicate (2 * n + 1) ((2 * c + 1) % 256)) ∧
      ¬ IsString s'.mem (s.alloc + 8) (List.replicate n (c % 256)) := by
  obtain ⟨s', e, h, _⟩ := C19_body_partial (gc := gc) s (2 * n + 1)
    (fun _ => List.replicate (2 * n + 1) ((2 * c + 1) % 256)) hroom hn
    (fun b hb => by rw [List.mem_replicate] at hb; rw [hb.2]; omega) (by simp) (fun _ _ => rfl)
  refine ⟨s', e, h, fun h' => ?_⟩
  have := congrArg List.length (C18_injective h h')
  simp at this
  omega

/-- `sub s off len` returns `2*len+1` bytes starting at offset `2*off+1`. -/
theorem C19_sub_refuted {gc : St → Nat → St} (s : St) (x off len : Nat) (bs : List Nat)
    (_hx : IsString s.mem x bs) (hm : ∀ a, s.mem a < 256) (hlen : 2 * len + 1 < 2^31)
    (hbelow : x + (2 * off + 1) + (2 * len + 1) ≤ s.alloc)
    (hroom : s.alloc + 8 * ((2 * len + 1) / 8 + 2) ≤ s.limit) :
    ∃ s', strSub gc s x (2 * off + 1) (2 * len + 1) = some (s.alloc + 8, s') ∧
      ∀ r, IsString s'.mem (s.alloc + 8) r → r.length = 2 * len + 1 := by
  obtain ⟨s', e, h, _⟩ := C19_body_partial (gc := gc) s (2 * len + 1)
    (fun m => (List.range (2 * len + 1)).map fun i => m (x + (2 * off + 1 + i))) hroom hlen
    (fun b hb => by
      rw [List.mem_map] at hb
      obtain ⟨i, _, rfl⟩ := hb
      exact hm _) (by simp)
    (fun m hmem => by
      apply List.map_congr_left
      intro i hi
      rw [List.mem_range] at hi
      exact hmem _ (Or.inl (by omega)))
  refine ⟨s', e, fun r hr => ?_⟩
  have := congrArg List.length (C18_injective h hr)
  simpa using this.symm

/-- `cat` with enough room returns the concatenation (but see `C19_body_overlap`, `C19_body_refuted`). -/
theorem C19_cat_partial {gc : St → Nat → St} (s : St) (x y : Nat) (bs cs : List Nat) (hbs : Bytes bs) (hcs : Bytes cs)
    (hx : IsString s.mem x bs) (hy : IsString s.mem y cs)
    (hxb : x + bs.length ≤ s.alloc) (hyb : y + cs.length ≤ s.alloc) (hlen : bs.length + cs.length < 2^31)
    (hroom : s.alloc + 8 * ((bs.length + cs.length) / 8 + 2) ≤ s.limit) :
    ∃ s', strCat gc s x y = some (s.alloc + 8, s') ∧ IsString s'.mem (s.alloc + 8) (bs ++ cs) := by
  have hbytes : ∀ m : Mem, (∀ a, a < s.alloc ∨ s.alloc + 8 ≤ a → m a = s.mem a) →
      (List.range bs.length).map (fun i => m (x + i)) ++ (List.range cs.length).map (fun i => m (y + i)) =
        bs ++ cs := by
    intro m hm
    congr 1
    · apply List.ext_getElem (by simp)
      intro i h1 h2
      simp only [List.getElem_map, List.getElem_range]
      rw [hm _ (Or.inl (by omega)), hx.bytes i h2]
    · apply List.ext_getElem (by simp)
      intro i h1 h2
      simp only [List.getElem_map, List.getElem_range]
      rw [hm _ (Or.inl (by omega)), hy.bytes i h2]
  have h0 := hbytes s.mem (fun _ _ => rfl)
  obtain ⟨s', e, h, _⟩ := C19_body_partial (gc := gc) s (bs.length + cs.length)
    (fun m => (List.range bs.length).map (fun i => m (x + i)) ++ (List.range cs.length).map (fun i => m (y + i)))
    hroom hlen (by
      show Bytes (_ ++ _)
      rw [h0]
      intro b hb
      rcases List.mem_append.1 hb with h | h
      · exact hbs b h
      · exact hcs b h) (by simp) (fun m hm => by
      show _ ++ _ = _ ++ _
      rw [hbytes m hm, h0])
  refine ⟨s', ?_, ?_⟩
  · unfold strCat
    rw [strlen_ok hx, strlen_ok hy]
    exact e
  · simp only [h0] at h; exact h

/-- **C19, refuted for collections.** If memory has to be collected for the result of `cat`, the bytes are read from the old places of the strings afterwards: where the first string was, a single
byte that differs (the collector leaves the new address there) gives another string. -/
theorem C19_collect_refuted {gc : St → Nat → St} (s : St) (x y : Nat) (bs cs : List Nat) (hx : IsString s.mem x bs) (hy : IsString s.mem y cs)
    (hlen : bs.length + cs.length < 2^31) (hfull : s.limit < s.alloc + 8 * ((bs.length + cs.length) / 8 + 1)) {s1 : St}
    (hgc : gc s ((bs.length + cs.length) / 8 + 1) = s1) (hroom : s1.alloc + 8 * ((bs.length + cs.length) / 8 + 2) ≤ s1.limit) (hm : ∀ a, s1.mem a < 256)
    (hxo : x + bs.length ≤ s1.alloc ∨ s1.alloc + 8 ≤ x) (hyo : y + cs.length ≤ s1.alloc ∨ s1.alloc + 8 ≤ y) {i : Nat} (hi : i < bs.length) (hd : s1.mem (x + i) ≠ bs[i]) :
    ∃ s', strCat gc s x y = some (s1.alloc + 8, s') ∧ ¬ IsString s'.mem (s1.alloc + 8) (bs ++ cs) := by
  have hres : reserve gc s ((bs.length + cs.length) / 8 + 1) = s1 := by rw [reserve, if_neg (by omega), hgc]
  have hres1 : reserve gc s1 ((bs.length + cs.length) / 8 + 1) = s1 := if_pos (by omega)
  obtain ⟨s', e, h, _⟩ := C19_body_partial (gc := gc) s1 (bs.length + cs.length)
    (fun m => (List.range bs.length).map (fun i => m (x + i)) ++ (List.range cs.length).map (fun i => m (y + i)))
    hroom hlen (by
      intro b hb
      simp only [List.mem_append, List.mem_map] at hb
      rcases hb with ⟨_, _, rfl⟩ | ⟨_, _, rfl⟩ <;> exact hm _) (by simp) (fun m hmem => by
      show _ ++ _ = _ ++ _
      congr 1 <;> refine List.map_congr_left fun j hj => ?_ <;> rw [List.mem_range] at hj <;> exact hmem _ (by omega))
  refine ⟨s', ?_, fun h' => hd ?_⟩
  · unfold strCat
    rw [strlen_ok hx, strlen_ok hy]
    simp only [Int.toNat_natCast]
    rw [← e]
    unfold mkBody
    simp only [hres, hres1]
  · have := C18_injective h h'
    have h2 : ((List.range bs.length).map (fun i => s1.mem (x + i)) ++ (List.range cs.length).map (fun i => s1.mem (y + i)))[i]? = (bs ++ cs)[i]? := by rw [← this]
    rw [List.getElem?_append_left (by simpa using hi), List.getElem?_append_left hi, List.getElem?_map, List.getElem?_range hi, List.getElem?_eq_getElem hi] at h2
    exact Option.some.inj h2

/-- "Hi" at 1000 and "yo" at 1016, in a full nursery. -/
def twoStrings : Mem := fun a => ((List.range 32).zip [252, 4, 0, 0, 0, 0, 0, 0, 72, 105, 0, 0, 0, 0, 0, 5, 252, 4, 0, 0, 0, 0, 0, 0, 121, 111, 0, 0, 0, 0, 0, 5]).lookup (a - 992) |>.getD 0

/-- The state in which they are concatenated. -/
def fullState : St := ⟨twoStrings, 1024, 1024⟩

theorem hi_string : IsString fullState.mem 1000 [72, 105] := ⟨by decide +kernel, by decide +kernel, fun i h1 h2 => by
  simp only [List.length_cons, List.length_nil] at h1 h2
  have : i = 2 ∨ i = 3 ∨ i = 4 ∨ i = 5 ∨ i = 6 := by omega
  rcases this with rfl | rfl | rfl | rfl | rfl <;> decide +kernel, by decide +kernel⟩

theorem yo_string : IsString fullState.mem 1016 [121, 111] := ⟨by decide +kernel, by decide +kernel, fun i h1 h2 => by
  simp only [List.length_cons, List.length_nil] at h1 h2
  have : i = 2 ∨ i = 3 ∨ i = 4 ∨ i = 5 ∨ i = 6 := by omega
  rcases this with rfl | rfl | rfl | rfl | rfl <;> decide +kernel, by decide +kernel⟩

/-- A collection that has moved "Hi" and has left the new address, 4096, in its place. -/
def movedStrings : St := ⟨fun a => if a = 1000 then 0 else if a = 1001 then 16 else if 1002 ≤ a ∧ a < 1008 then 0 else if a < 1024 then twoStrings a else 0, 8000, 9000⟩

example : ∃ s', strCat (fun _ _ => movedStrings) fullState 1000 1016 = some (8008, s') ∧ ¬ IsString s'.mem 8008 [72, 105, 121, 111] := by
  have hm : ∀ a, movedStrings.mem a < 256 := by
    intro a
    have : ∀ k < 1024, movedStrings.mem k < 256 := by decide +kernel
    by_cases h : a < 1024
    · exact this a h
    · simp only [movedStrings]
      rw [if_neg (by omega), if_neg (by omega), if_neg (by omega), if_neg h]
      omega
  have key := @C19_collect_refuted (fun _ _ => movedStrings) fullState 1000 1016 [72, 105] [121, 111]
  exact key hi_string yo_string (by decide +kernel) (by decide +kernel) rfl (by decide +kernel) hm (by decide +kernel) (by decide +kernel) (i := 0) (by decide +kernel)
    (by decide +kernel)

end RT
