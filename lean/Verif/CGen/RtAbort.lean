import Verif.CGen.RtLemmas
import Verif.CGen.Static

/-!
# Why a compiled program is aborted
-/

namespace CGen

open ANF

mutual
/-- Every `tinfo->nalloc = n` of the code requests at most `K` words. -/
def Reserves (K : Nat) : CStmt → Prop
  | .seq a b => Reserves K a ∧ Reserves K b
  | .setNalloc n => n ≤ K
  | .ifLow _ s => Reserves K s
  | .ifPtr _ a b => Reserves K a ∧ Reserves K b
  | .switchTag _ ls => ReservesL K ls
  | .switchOrd _ ls => ReservesL K ls
  | _ => True
/-- The same for labelled statements. -/
def ReservesL (K : Nat) : LStmt → Prop
  | .nil => True
  | .cons _ s ls => Reserves K s ∧ ReservesL K ls
end

/-- The request of the last heap check is at most `K` words, and an abort has the reason `A`. -/
def Asks (K : Nat) (A : Prop) : Out → Prop
  | .norm _ h => h.nalloc ≤ K
  | .brk _ h => h.nalloc ≤ K
  | .ret _ h => h.nalloc ≤ K
  | .abort => A
  | _ => True

theorem asks_after {K : Nat} {A : Prop} {l : Loc} {x : Var} {o : Out} (h : Asks K A o) : Asks K A (afterCall l x o) := by
  cases o <;> first | exact h | exact trivial

theorem asks_unbreak {K : Nat} {A : Prop} {o : Out} (h : Asks K A o) : Asks K A (unbreak o) := by
  cases o <;> exact h

section
variable {W : World} {K : Nat} {A : Prop} {call : Nat → Var → List CVal → Th → Out}

mutual
theorem exec_asks (hg : ∀ h h', W.gc h = .ok h' → h'.nalloc = h.nalloc) (ha : ∀ h, h.nalloc ≤ K → W.gc h = .abort → A)
    (hp : ∀ p cs h, h.nalloc ≤ K → Asks K A (W.primT p cs h)) (hc : ∀ d f cs h, h.nalloc ≤ K → Asks K A (call d f cs h)) (me : Nat) :
    ∀ (s : CStmt) (l : Loc) (h : Th), Reserves K s → h.nalloc ≤ K → Asks K A (exec W call me s l h)
  | .skip, l, h, _, hn => hn
  | .seq a b, l, h, hs, hn => by
    have h1 := exec_asks hg ha hp hc me a l h hs.1 hn
    simp only [exec]
    cases hx : exec W call me a l h with
    | norm l' h' => rw [hx] at h1; exact exec_asks hg ha hp hc me b l' h' hs.2 h1
    | _ => rw [hx] at h1; exact h1
  | .set x e, l, h, _, hn => by
    simp only [exec]; split
    · exact hn
    · trivial
  | .setField x n e, l, h, _, hn => by
    simp only [exec]; split
    · split
      · exact hn
      · trivial
    · trivial
  | .setArg i e, l, h, _, hn => by
    simp only [exec]; split
    · split
      · exact hn
      · trivial
    · trivial
  | .setRoot i e, l, h, _, hn => by
    simp only [exec]; split
    · split
      · exact hn
      · trivial
    · trivial
  | .bump _, l, h, _, hn => hn
  | .loadAlloc, l, h, _, hn => hn
  | .loadLimit, l, h, _, hn => hn
  | .loadArgs, l, h, _, hn => hn
  | .saveAlloc, l, h, _, hn => hn
  | .saveLimit, l, h, _, hn => hn
  | .initStack, l, h, _, hn => hn
  | .setNext _, l, h, _, hn => hn
  | .link, l, h, _, hn => hn
  | .unlink, l, h, _, hn => hn
  | .setNalloc n, l, h, hs, _ => hs
  | .gc, l, h, _, hn => by
    simp only [exec]
    cases hx : W.gc h with
    | ok h' => simp only [Asks]; rw [hg h h' hx]; exact hn
    | abort => exact ha h hn hx
    | ub => trivial
  | .call x f es, l, h, _, hn => by
    simp only [exec]; split
    · exact asks_after (hc _ _ _ _ hn)
    · trivial
  | .prim x p es, l, h, _, hn => by
    simp only [exec]; split
    · split
      · exact hn
      · trivial
    · trivial
  | .primT x p es, l, h, _, hn => by
    simp only [exec]; split
    · exact asks_after (hp _ _ _ hn)
    · trivial
  | .ifLow n s, l, h, hs, hn => by
    simp only [exec]; split
    · exact hn
    · exact exec_asks hg ha hp hc me s l h hs hn
  | .ifPtr x a b, l, h, hs, hn => by
    simp only [exec]; split
    · exact exec_asks hg ha hp hc me a l h hs.1 hn
    · split
      · exact exec_asks hg ha hp hc me a l h hs.1 hn
      · exact exec_asks hg ha hp hc me b l h hs.2 hn
    · trivial
  | .switchTag x ls, l, h, hs, hn => by
    simp only [exec]; split
    · split
      · rename_i o ho
        exact asks_unbreak (execCase_asks hg ha hp hc me _ ls l h hs hn o ho)
      · split
        · rename_i o ho
          exact asks_unbreak (execDefault_asks hg ha hp hc me ls l h hs hn o ho)
        · exact hn
    · trivial
  | .switchOrd x ls, l, h, hs, hn => by
    simp only [exec]; split
    · split
      · rename_i o ho
        exact asks_unbreak (execCase_asks hg ha hp hc me _ ls l h hs hn o ho)
      · split
        · rename_i o ho
          exact asks_unbreak (execDefault_asks hg ha hp hc me ls l h hs hn o ho)
        · exact hn
    · trivial
  | .brk, l, h, _, hn => hn
  | .ret e, l, h, _, hn => by
    simp only [exec]; split
    · exact hn
    · trivial
theorem execL_asks (hg : ∀ h h', W.gc h = .ok h' → h'.nalloc = h.nalloc) (ha : ∀ h, h.nalloc ≤ K → W.gc h = .abort → A)
    (hp : ∀ p cs h, h.nalloc ≤ K → Asks K A (W.primT p cs h)) (hc : ∀ d f cs h, h.nalloc ≤ K → Asks K A (call d f cs h)) (me : Nat) :
    ∀ (ls : LStmt) (l : Loc) (h : Th), ReservesL K ls → h.nalloc ≤ K → Asks K A (execL W call me ls l h)
  | .nil, l, h, _, hn => hn
  | .cons _ s ls, l, h, hs, hn => by
    have h1 := exec_asks hg ha hp hc me s l h hs.1 hn
    simp only [execL]
    cases hx : exec W call me s l h with
    | norm l' h' => rw [hx] at h1; exact execL_asks hg ha hp hc me ls l' h' hs.2 h1
    | _ => rw [hx] at h1; exact h1
theorem execCase_asks (hg : ∀ h h', W.gc h = .ok h' → h'.nalloc = h.nalloc) (ha : ∀ h, h.nalloc ≤ K → W.gc h = .abort → A)
    (hp : ∀ p cs h, h.nalloc ≤ K → Asks K A (W.primT p cs h)) (hc : ∀ d f cs h, h.nalloc ≤ K → Asks K A (call d f cs h)) (me : Nat)
    (z : Int) : ∀ (ls : LStmt) (l : Loc) (h : Th), ReservesL K ls → h.nalloc ≤ K → ∀ o, execCase W call me z ls l h = some o → Asks K A o
  | .nil, _, _, _, _, o, ho => by cases ho
  | .cons lab s ls, l, h, hs, hn, o, ho => by
    simp only [execCase] at ho
    split at ho
    · cases ho
      have h1 := exec_asks hg ha hp hc me s l h hs.1 hn
      cases hx : exec W call me s l h with
      | norm l' h' => rw [hx] at h1; exact execL_asks hg ha hp hc me ls l' h' hs.2 h1
      | _ => rw [hx] at h1; exact h1
    · exact execCase_asks hg ha hp hc me z ls l h hs.2 hn o ho
theorem execDefault_asks (hg : ∀ h h', W.gc h = .ok h' → h'.nalloc = h.nalloc) (ha : ∀ h, h.nalloc ≤ K → W.gc h = .abort → A)
    (hp : ∀ p cs h, h.nalloc ≤ K → Asks K A (W.primT p cs h)) (hc : ∀ d f cs h, h.nalloc ≤ K → Asks K A (call d f cs h)) (me : Nat) :
    ∀ (ls : LStmt) (l : Loc) (h : Th), ReservesL K ls → h.nalloc ≤ K → ∀ o, execDefault W call me ls l h = some o → Asks K A o
  | .nil, _, _, _, _, o, ho => by cases ho
  | .cons lab s ls, l, h, hs, hn, o, ho => by
    simp only [execDefault] at ho
    split at ho
    · cases ho
      have h1 := exec_asks hg ha hp hc me s l h hs.1 hn
      cases hx : exec W call me s l h with
      | norm l' h' => rw [hx] at h1; exact execL_asks hg ha hp hc me ls l' h' hs.2 h1
      | _ => rw [hx] at h1; exact h1
    · exact execDefault_asks hg ha hp hc me ls l h hs.2 hn o ho
end

theorem enter_asks (hg : ∀ h h', W.gc h = .ok h' → h'.nalloc = h.nalloc) (ha : ∀ h, h.nalloc ≤ K → W.gc h = .abort → A)
    (hp : ∀ p cs h, h.nalloc ≤ K → Asks K A (W.primT p cs h)) (hc : ∀ d f cs h, h.nalloc ≤ K → Asks K A (call d f cs h))
    (F : CFun) (hF : Reserves K F.body) (d : Nat) (cs : List CVal) (h : Th) (hn : h.nalloc ≤ K) :
    Asks K A (enter W call F d cs h) := by
  unfold enter
  split
  · have := exec_asks hg ha hp hc d F.body ⟨bindParams F.params cs, 0, 0, false⟩ (h.setFrame d ⟨F.rootSize, 0, none, fun _ => none⟩) hF hn
    cases hx : exec W call d F.body ⟨bindParams F.params cs, 0, 0, false⟩ (h.setFrame d ⟨F.rootSize, 0, none, fun _ => none⟩) with
    | ret c h' => rw [hx] at this; exact this
    | abort => rw [hx] at this; exact this
    | _ => trivial
  · trivial

theorem findFun_mem' {f : Var} {F : CFun} : ∀ {P : List CFun}, findFun f P = some F → F ∈ P
  | [], h => by cases h
  | G :: P, h => by
    simp only [findFun] at h
    split at h
    · cases h; exact List.mem_cons_self
    · exact List.mem_cons_of_mem _ (findFun_mem' h)

theorem callC_asks (hg : ∀ h h', W.gc h = .ok h' → h'.nalloc = h.nalloc) (ha : ∀ h, h.nalloc ≤ K → W.gc h = .abort → A)
    (hp : ∀ p cs h, h.nalloc ≤ K → Asks K A (W.primT p cs h)) (P : List CFun) (hP : ∀ F ∈ P, Reserves K F.body) :
    ∀ n d f cs h, h.nalloc ≤ K → Asks K A (callC W P n d f cs h) := by
  intro n
  induction n with
  | zero => intro d f cs h _; trivial
  | succ n ih =>
    intro d f cs h hn
    simp only [callC]
    split
    · rename_i F hF
      exact enter_asks hg ha hp ih F (hP F (findFun_mem' hF)) d cs h hn
    · trivial

/-- A program is aborted only by the collector or a primitive. -/
theorem runC_asks (hg : ∀ h h', W.gc h = .ok h' → h'.nalloc = h.nalloc) (ha : ∀ h, h.nalloc ≤ K → W.gc h = .abort → A)
    (hp : ∀ p cs h, h.nalloc ≤ K → Asks K A (W.primT p cs h)) {M : CFun × List CFun} (hM : Reserves K M.1.body)
    (hP : ∀ F ∈ M.2, Reserves K F.body) (n d : Nat) (h : Th) (hn : h.nalloc ≤ K) : Asks K A (runC W M n d h) :=
  enter_asks hg ha hp (callC_asks hg ha hp M.2 hP n) M.1 hM d [] h hn

end

/-! ## Reservations are bounded by the words a function constructs -/

mutual
/-- The words of all constructor applications in the term, on all paths. -/
def wordsE : Exp → Nat
  | .constr _ _ ys e => ys.length + 1 + wordsE e
  | .case _ bs => wordsBs bs
  | .proj _ _ _ _ e => wordsE e
  | .letapp _ _ _ _ e => wordsE e
  | .fn B e => wordsB B + wordsE e
  | .app _ _ _ => 0
  | .primVal _ _ e => wordsE e
  | .prim _ _ _ e => wordsE e
  | .halt _ => 0
/-- The same for branches. -/
def wordsBs : Brs → Nat
  | .nil => 0
  | .cons _ e bs => wordsE e + wordsBs bs
/-- The same for nested functions, with their parameters. -/
def wordsB : Defs → Nat
  | .nil => 0
  | .cons _ _ xs e B => xs.length + wordsE e + wordsB B
end

/-- Each function of the program constructs at most `K` words. -/
def WordsB (K : Nat) : Defs → Prop
  | .nil => True
  | .cons _ _ _ e B => wordsE e ≤ K ∧ WordsB K B

mutual
theorem maxAllocs_words : ∀ e : Exp, maxAllocsE e ≤ wordsE e
  | .constr _ _ ys e => by
    have := maxAllocs_words e
    cases ys <;> simp only [maxAllocsE, wordsE, List.length_cons, List.length_nil] <;> omega
  | .case _ bs => by simp only [maxAllocsE, wordsE]; exact maxAllocs_wordsBs bs
  | .proj _ _ _ _ e => by simp only [maxAllocsE, wordsE]; exact maxAllocs_words e
  | .letapp _ _ _ _ e => by simp only [maxAllocsE]; exact Nat.zero_le _
  | .fn B e => by
    have := maxAllocs_words e
    have := maxAllocs_wordsB B
    simp only [maxAllocsE, wordsE]; omega
  | .app _ _ _ => by simp only [maxAllocsE]; exact Nat.zero_le _
  | .primVal _ _ e => by simp only [maxAllocsE, wordsE]; exact maxAllocs_words e
  | .prim _ _ _ e => by simp only [maxAllocsE, wordsE]; exact maxAllocs_words e
  | .halt _ => by simp only [maxAllocsE]; exact Nat.zero_le _
theorem maxAllocs_wordsBs : ∀ bs : Brs, maxAllocsBs bs ≤ wordsBs bs
  | .nil => by simp only [maxAllocsBs]; exact Nat.zero_le _
  | .cons _ e bs => by
    have := maxAllocs_words e
    have := maxAllocs_wordsBs bs
    simp only [maxAllocsBs, wordsBs]; omega
theorem maxAllocs_wordsB : ∀ B : Defs, maxAllocsB B ≤ wordsB B
  | .nil => by simp only [maxAllocsB]; exact Nat.zero_le _
  | .cons _ _ _ e B => by
    have := maxAllocs_words e
    have := maxAllocs_wordsB B
    simp only [maxAllocsB, wordsB]; omega
end

section
variable {K : Nat} {fns : List Var} {C : Cfg} {fenv : FEnv} {loc : Finset Var}

theorem reserves_fields (x : Var) : ∀ (vs : List Var) (k : Nat), Reserves K (assignFields fns x k vs)
  | [], _ => by simp [assignFields, Reserves]
  | [v], _ => by simp [assignFields, Reserves]
  | v :: w :: vs, k => by
    simp only [assignFields, Reserves]
    exact ⟨trivial, reserves_fields x (w :: vs) (k + 1)⟩

theorem reserves_app : ∀ {vs : List Var} {ind s}, asgnAppVars' fns vs ind = some s → Reserves K s := by
  intro vs
  induction vs with
  | nil =>
    intro ind s h
    cases ind <;> simp [asgnAppVars'] at h
    subst h; simp [Reserves]
  | cons v vs ih =>
    intro ind s h
    cases ind with
    | nil => simp [asgnAppVars'] at h
    | cons i ind =>
      simp only [asgnAppVars', Option.map_eq_some_iff] at h
      obtain ⟨s', h1, rfl⟩ := h
      simp only [Reserves]
      exact ⟨ih h1, trivial⟩

theorem reserves_fun : ∀ {vs : List Var} {ind s}, asgnFunVars' vs ind = some s → Reserves K s := by
  intro vs
  induction vs with
  | nil =>
    intro ind s h
    cases ind <;> simp [asgnFunVars'] at h
    subst h; simp [Reserves]
  | cons v vs ih =>
    intro ind s h
    cases ind with
    | nil => simp [asgnFunVars'] at h
    | cons i ind =>
      simp only [asgnFunVars', Option.map_eq_some_iff] at h
      obtain ⟨s', h1, rfl⟩ := h
      simp only [Reserves]
      exact ⟨trivial, ih h1⟩

theorem reserves_push : ∀ (xs : List Var) (k : Nat) (s : CStmt), Reserves K s → Reserves K (pushAux xs k s).1
  | [], _, s, h => by simpa [pushAux] using h
  | x :: xs, k, s, h => by
    simp only [pushAux]
    exact reserves_push xs (k + 1) _ (by simp only [Reserves]; exact ⟨trivial, h⟩)

theorem reserves_pop : ∀ (xs : List Var) (k : Nat) (s : CStmt), Reserves K s → Reserves K (popAux xs k s)
  | [], _, s, h => by simpa [popAux] using h
  | x :: xs, k, s, h => by
    simp only [popAux]
    exact reserves_pop xs (k + 1) _ (by simp only [Reserves]; exact ⟨trivial, h⟩)

theorem reserves_update {k : Nat} : Reserves K (updateStack k) := by
  unfold updateStack; split <;> simp [Reserves]

theorem reserves_set {k b} : Reserves K (setStack k b) := by unfold setStack; split <;> simp [Reserves]

theorem reserves_reset {k b} : Reserves K (resetStack k b) := by unfold resetStack; split <;> simp [Reserves]

theorem reserves_gc {m : Nat} {xs : List Var} {off : Nat} (h : m ≤ K) : Reserves K (gcCall m xs off).1 := by
  unfold gcCall
  split
  · simp [Reserves]
  · simp only [Reserves]
    exact ⟨⟨reserves_push xs off .skip (by simp [Reserves]), reserves_update, reserves_set⟩, h, trivial,
      ⟨reserves_pop xs off .skip (by simp [Reserves]), reserves_reset⟩, trivial, trivial⟩

theorem reserves_around {x : Var} {e' : Exp} {pre c : CStmt} (hp : Reserves K pre) (hc : Reserves K c)
    (h : wordsE e' ≤ K) : Reserves K (aroundCall loc x e' pre c).1 := by
  unfold aroundCall
  simp only [Reserves]
  exact ⟨hp, trivial, trivial, ⟨reserves_push _ 0 .skip (by simp [Reserves]), reserves_update, reserves_set⟩, hc,
    trivial, trivial, reserves_gc ((maxAllocs_words e').trans h), reserves_pop _ 0 .skip (by simp [Reserves]), reserves_reset⟩

theorem reserves_prim (x : Var) (p : PVal) : Reserves K (compilePrim x p) := by
  have hst : ∀ (ws : List Nat) (i : Nat) (acc : CStmt), Reserves K acc → Reserves K (storeWords x i ws acc) := by
    intro ws
    induction ws with
    | nil => intro i acc h; simpa [storeWords] using h
    | cons w ws ih =>
      intro i acc h
      simp only [storeWords]
      exact ih _ _ (by simp only [Reserves]; exact ⟨h, trivial⟩)
  cases p with
  | int n => simp [compilePrim, Reserves]
  | float b => simp [compilePrim, Reserves]
  | str s =>
    simp only [compilePrim, Reserves]
    exact ⟨trivial, trivial, hst _ _ _ (by simp [Reserves])⟩

mutual
theorem reserves_trE : ∀ (e : Exp) (sl : Nat) (s : CStmt) (n : Nat), trE C fenv fns loc e sl = some (s, n) → wordsE e ≤ K →
    Reserves K s
  | .constr x t ys e, sl, s, n, htr, hK => by
    simp only [trE] at htr
    simp only [wordsE] at hK
    split at htr
    case h_2 => cases htr
    rename_i p s' n' hp htr'
    simp only [Option.some.injEq, Prod.mk.injEq] at htr
    obtain ⟨rfl, rfl⟩ := htr
    simp only [Reserves]
    refine ⟨?_, reserves_trE e _ _ _ htr' (by omega)⟩
    unfold assignConstructor at hp
    split at hp
    · cases hp; simp [Reserves]
    · cases hp; simp only [Reserves]; exact ⟨trivial, trivial, trivial, reserves_fields x ys 0⟩
    · cases hp
  | .case x bs, sl, s, n, htr, hK => by
    simp only [trE] at htr
    split at htr
    case h_2 => cases htr
    rename_i ls ls' n' htr'
    simp only [Option.some.injEq, Prod.mk.injEq] at htr
    obtain ⟨rfl, rfl⟩ := htr
    simp only [caseSwitch, Reserves]
    exact reserves_trBs bs _ _ _ _ htr' (by simpa only [wordsE] using hK)
  | .proj x t k y e, sl, s, n, htr, hK => by
    simp only [trE] at htr
    split at htr
    case h_2 => cases htr
    rename_i s' n' htr'
    simp only [Option.some.injEq, Prod.mk.injEq] at htr
    obtain ⟨rfl, rfl⟩ := htr
    simp only [Reserves]
    exact ⟨trivial, reserves_trE e _ _ _ htr' (by simpa only [wordsE] using hK)⟩
  | .letapp x f ft ys e, sl, s, n, htr, hK => by
    simp only [trE] at htr
    simp only [wordsE] at hK
    split at htr
    case h_2 => cases htr
    split at htr
    case h_2 => cases htr
    rename_i asgn c hasgn hmk
    split at htr
    case h_2 => cases htr
    rename_i s' n' htr'
    simp only [Option.some.injEq, Prod.mk.injEq] at htr
    obtain ⟨rfl, rfl⟩ := htr
    simp only [Reserves]
    refine ⟨reserves_around ?_ ?_ hK, reserves_trE e _ _ _ htr' hK⟩
    · simp only [asgnAppVars, Option.map_eq_some_iff] at hasgn
      obtain ⟨a, ha, rfl⟩ := hasgn
      simp only [Reserves]; exact ⟨trivial, reserves_app ha⟩
    · simp only [mkCall, Option.map_eq_some_iff] at hmk
      obtain ⟨es, he, rfl⟩ := hmk
      simp [Reserves]
  | .fn _ _, sl, s, n, htr, _ => by simp [trE] at htr
  | .app f ft ys, sl, s, n, htr, _ => by
    simp only [trE] at htr
    split at htr
    case h_2 => cases htr
    split at htr
    case h_2 => cases htr
    rename_i asgn c hasgn hmk
    simp only [Option.some.injEq, Prod.mk.injEq] at htr
    obtain ⟨rfl, rfl⟩ := htr
    simp only [asgnAppVars, Option.map_eq_some_iff] at hasgn
    obtain ⟨a, ha, rfl⟩ := hasgn
    simp only [mkCall, Option.map_eq_some_iff] at hmk
    obtain ⟨es, he, rfl⟩ := hmk
    simp only [Reserves]
    exact ⟨⟨trivial, reserves_app ha⟩, trivial, trivial, trivial, trivial⟩
  | .primVal x p e, sl, s, n, htr, hK => by
    simp only [trE] at htr
    split at htr
    case h_2 => cases htr
    rename_i s' n' htr'
    simp only [Option.some.injEq, Prod.mk.injEq] at htr
    obtain ⟨rfl, rfl⟩ := htr
    simp only [Reserves]
    exact ⟨reserves_prim x p, reserves_trE e _ _ _ htr' (by simpa only [wordsE] using hK)⟩
  | .prim x p ys e, sl, s, n, htr, hK => by
    simp only [trE] at htr
    simp only [wordsE] at hK
    split at htr
    · rename_i as hpr has
      split at htr
      case h_2 => cases htr
      rename_i s' n' htr'
      simp only [Option.some.injEq, Prod.mk.injEq] at htr
      obtain ⟨rfl, rfl⟩ := htr
      simp only [Reserves]
      exact ⟨trivial, reserves_trE e _ _ _ htr' hK⟩
    · rename_i as hpr has
      split at htr
      case h_2 => cases htr
      rename_i s' n' htr'
      simp only [Option.some.injEq, Prod.mk.injEq] at htr
      obtain ⟨rfl, rfl⟩ := htr
      simp only [Reserves]
      exact ⟨reserves_around (by simp [Reserves]) (by simp [Reserves]) hK, reserves_trE e _ _ _ htr' hK⟩
    · cases htr
  | .halt x, sl, s, n, htr, _ => by
    simp only [trE, Option.some.injEq, Prod.mk.injEq] at htr
    obtain ⟨rfl, rfl⟩ := htr
    simp [Reserves]
theorem reserves_trBs : ∀ (bs : Brs) (sl : Nat) (ls ls' : LStmt) (n : Nat), trBs C fenv fns loc bs sl = some (ls, ls', n) →
    wordsBs bs ≤ K → ReservesL K ls ∧ ReservesL K ls'
  | .nil, sl, ls, ls', n, htr, _ => by
    simp only [trBs, Option.some.injEq, Prod.mk.injEq] at htr
    obtain ⟨rfl, rfl, rfl⟩ := htr
    simp [ReservesL]
  | .cons t e bs, sl, ls, ls', n, htr, hK => by
    simp only [trBs] at htr
    simp only [wordsBs] at hK
    split at htr
    case h_2 => cases htr
    rename_i s n1 l1 l2 n2 he hbs
    have h1 := reserves_trE e _ _ _ he (by omega)
    obtain ⟨h2, h3⟩ := reserves_trBs bs _ _ _ _ hbs (by omega)
    split at htr
    · split at htr
      all_goals
        simp only [Option.some.injEq, Prod.mk.injEq] at htr
        obtain ⟨rfl, rfl, rfl⟩ := htr
        refine ⟨?_, h3⟩
        simp only [ReservesL, Reserves] at h2 ⊢
        simp [h1, h2]
    · split at htr
      all_goals
        simp only [Option.some.injEq, Prod.mk.injEq] at htr
        obtain ⟨rfl, rfl, rfl⟩ := htr
        refine ⟨h2, ?_⟩
        simp only [ReservesL, Reserves] at h3 ⊢
        simp [h1, h3]
    · cases htr
end

theorem reserves_trDefs : ∀ {B : Defs} {P}, trDefs C fenv fns B = some P → WordsB K B → ∀ F ∈ P, Reserves K F.body := by
  intro B
  induction B using Defs.ind with
  | nil => intro P h; simp only [trDefs, Option.some.injEq] at h; subst h; simp
  | cons f ft xs e B ih =>
    intro P h hK
    simp only [trDefs] at h
    simp only [WordsB] at hK
    split at h
    case h_2 => cases h
    rename_i P' F' h1 h2
    simp only [Option.some.injEq] at h
    subst h
    intro F hF
    simp only [List.mem_cons] at hF
    rcases hF with rfl | hF
    · simp only [trDef] at h2
      split at h2
      · cases h2
      split at h2
      case h_2 => cases h2
      rename_i asgn body n hasgn htr
      simp only [Option.some.injEq] at h2
      subst h2
      simp only [Reserves]
      exact ⟨trivial, trivial, trivial, reserves_fun hasgn, trivial, reserves_gc ((maxAllocs_words e).trans hK.1),
        reserves_trE e _ _ _ htr hK.1⟩
    · exact ih h1 hK.2 F hF

/-- A function never reserves more words than its constructor applications have together. -/
theorem reserves_compile {B : Defs} {e : Exp} {body : Var} {M : CFun × List CFun} (hM : compileC C body (.fn B e) = some M)
    (hB : WordsB K B) (he : wordsE e ≤ K) : Reserves K M.1.body ∧ ∀ F ∈ M.2, Reserves K F.body := by
  simp only [compileC] at hM
  split at hM
  case isFalse => cases hM
  split at hM
  case h_2 => cases hM
  rename_i P s m hPs htr
  simp only [Option.some.injEq] at hM
  subst hM
  refine ⟨?_, reserves_trDefs hPs hB⟩
  simp only [Reserves]
  exact ⟨trivial, trivial, trivial, trivial, reserves_gc ((maxAllocs_words e).trans he), reserves_trE e _ _ _ htr he⟩

end

namespace Rt

variable {R : Rt} {B : Defs} {cenv : Ctor.PMap Ctor.Info}

theorem collect_nalloc {h h' : Th} (hx : R.collect cenv B h = .ok h') : h'.nalloc = h.nalloc := by
  unfold collect at hx
  split at hx
  · split at hx
    · cases hx; rfl
    · cases hx
    · cases hx
  · cases hx

/-- Why the collector aborts: `malloc` failed, the request exceeds the nursery, or more than `2^57` words are in use. -/
theorem collect_abort (hR : R.Fits B) {h : Th} (hx : R.collect cenv B h = .abort) :
    (∃ j, R.malloc (R.heapOf h.mem) j = none) ∨ GC.nurserySize < h.nalloc ∨
      ∃ N, (∀ i, i < N ↔ (R.heapOf h.mem i).start ≠ 0) ∧
        2 ^ 57 < ∑ k ∈ Finset.range N, (GC.currentHeap (R.enc h) k).used := by
  unfold collect at hx
  split at hx
  case isFalse => cases hx
  rename_i hok
  split at hx
  case h_1 => cases hx
  case h_3 => cases hx
  rename_i he
  obtain ⟨N, objs, w0, w, hm, _⟩ := enc_ok hR hok
  obtain ⟨_, _, hsz, _⟩ := hok.heap
  have hs : ((R.enc h).heap 0).size = GC.nurserySize := hsz
  rcases GC.C12_abort w hm (Nat.lt_succ_self _) he with h1 | h1 | h1
  · exact .inl h1
  · right; left
    rw [hs] at h1
    exact h1
  · right; right
    rw [hs] at h1
    refine ⟨N, fun i => ?_, by simpa [GC.nurserySize] using h1⟩
    have hext := currentHeap_ext (R.tiOf h.mem h.alloc h.limit) i
    constructor
    · intro hi
      have := w0.inUse i hi
      rw [hext.1] at this
      exact Nat.pos_iff_ne_zero.1 this
    · intro hi
      by_contra hc
      have := (w0.unused i (by omega)).1
      rw [hext.1] at this
      exact hi this

end Rt

end CGen
