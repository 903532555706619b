import Verif.Proofs.SaneRead
import Verif.Proofs.Sound
import Verif.Proofs.Slots
import Verif.Props.Universal
import Verif.Model.Extra
/-
Lemmas for C59-C63: what single steps of searches, iterators and walks return, in any memory.
-/
set_option autoImplicit false
set_option linter.unusedVariables false
set_option linter.unusedSimpArgs false
set_option linter.unusedSectionVars false
namespace Art
variable {V : Type} [Inhabited V]

theorem watchLeaf_eq {h : Heap V} {a : Addr} {n : Inner} (key : Key) :
    watchLeaf h a (.inner n) key = searchLeaf h a (.inner n) key := by
  unfold watchLeaf searchLeaf
  split
  · rename_i hl
    simp only [Cell.isLeaf, Inner.isLeaf, Bool.and_eq_true, Option.isSome_iff_exists] at hl
    obtain ⟨-, l, hl⟩ := hl
    simp only [hl]
  · rfl

theorem watchLoopAt_eq {h : Heap V} (hs : Sane False h) (key : Key) (fuel : Nat) :
    ∀ (a : Addr) d, IsN False h a → watchLoopAt h key fuel a d = searchLoopAt h key fuel a d := by
  induction fuel with
  | zero => intro a d ha; rfl
  | succ k ih =>
    intro a d ha
    obtain ⟨n, hn, -⟩ := ha
    unfold watchLoopAt searchLoopAt
    have hr : rd h a = .ok (.inner n) := by unfold rd; rw [hn]
    simp only [hr, Except.bind_ok, watchLeaf_eq]
    cases searchLeaf h a (.inner n) key with
    | error e => rfl
    | ok o =>
      simp only [Except.bind_ok]
      cases o with
      | some hit => rfl
      | none =>
        simp only
        cases prefixBails (Cell.inner n) key d with
        | error e => rfl
        | ok b =>
          simp only [Except.bind_ok]
          split
          · rfl
          · split
            · rfl
            · cases byteAt key (d + (Cell.inner n : Cell V).partialLen) with
              | error e => rfl
              | ok b =>
                simp only [Except.bind_ok]
                cases hf : (Cell.inner n : Cell V).findChild b with
                | error e => rfl
                | ok p =>
                  obtain ⟨o, i⟩ := p
                  simp only [Except.bind_ok]
                  cases o with
                  | none => rfl
                  | some ch =>
                    exact ih _ _ ((hs a _ hn).2.2 ch (Cell.mem_findChild hf))

theorem iterNext_path {h : Heap V} {k : Key} {v : V} {it' : Iter} (fuel : Nat) :
    ∀ it, iterNext h fuel it = .ok (some (k, v), it') → it'.path = it.path ∧
      ∃ (a : Addr) (l : LeafC V), h[a]? = some (.leaf l) ∧ getKey l.key = k ∧ it.path <+: l.key := by
  have hp : ∀ x p : Key, hasPrefix x p = true → p <+: x := fun x p hx => by
    unfold hasPrefix at hx
    split at hx
    · rename_i h0
      rw [List.length_eq_zero_iff.1 h0]; exact List.nil_prefix
    · exact (hasPrefixB_iff _ _).1 hx
  induction fuel with
  | zero => intro it hs; cases hs
  | succ n ih =>
    intro it hs
    unfold iterNext at hs
    split at hs
    · cases hs
    · cases hs
    · obtain ⟨c, hc, hs⟩ := R.bind_ok hs
      split at hs
      · simp only at hs
        split at hs
        · rename_i hm; cases hs; exact ⟨rfl, _, _, rd_ok hc, rfl, hp _ _ hm.2.2⟩
        · have := ih _ hs; exact this
      · simp only at hs
        split at hs
        · have := ih _ hs; exact this
        · obtain ⟨lc, hlc, hs⟩ := R.bind_ok hs
          split at hs
          · rename_i hm; cases hs; exact ⟨rfl, _, _, rdLeaf_ok hlc, rfl, hp _ _ hm⟩
          · have := ih _ hs; exact this

/-- The keys in memory: those that were inserted, with their `'$'`, and the empty ones of new nodes. -/
theorem leafKey_form (ops : List (Op V)) {a : Addr} {l : LeafC V} (hl : (heapAfter ops)[a]? = some (.leaf l)) :
    l.key = [] ∨ l.key = getKey l.key ++ [36] := by
  rcases ((inserted_all ops).hok a _ hl).2 l rfl with ⟨h1, -⟩ | ⟨op, hop, k', hi, h1⟩
  · exact .inl h1
  · right; rw [h1, getKey_getTreeKey]; rfl

/-- Where the prefix comes from. -/
theorem seekPrefix_path (h : Heap V) (it it' : Iter) (p : Key) (a : Addr) (hs : seekPrefix h it p = .ok (it', a)) : it'.path = p := by
  unfold seekPrefix at hs
  split at hs
  · cases hs
  · obtain ⟨n, -, hs⟩ := R.bind_ok hs
    cases hs; rfl

theorem revNext_bound {h : Heap V} {k : Key} {v : V} {st' : List (Option Addr)} {path : Key} {ex : List Addr} (hne : path ≠ []) (fuel : Nat) :
    ∀ st, revNext h path ex fuel st = .ok (some (k, v), st') → cmpBytes k (getKey path) ≠ .gt ∨ path <+: k := by
  induction fuel with
  | zero => intro it hs; rw [revNext.eq_def] at hs; cases hs
  | succ n ih =>
    intro it hs
    rw [revNext.eq_def] at hs
    simp only at hs
    split at hs
    · cases hs
    · cases hs
    · obtain ⟨c, hc, hs⟩ := R.bind_ok hs
      split at hs
      · split at hs
        · rename_i hm
          cases hs
          left
          simpa [leBytes] using hm
        · exact ih _ hs
      · obtain ⟨lf, hlf, hs⟩ := R.bind_ok hs
        split at hs
        · exact ih _ hs
        · split at hs
          · split at hs
            · rename_i hm
              cases hs
              right
              unfold hasPrefix at hm
              rw [if_neg (fun h0 => hne (List.length_eq_zero_iff.1 h0))] at hm
              exact (hasPrefixB_iff _ _).1 hm
            · exact ih _ hs
          · exact ih _ hs

/-- The leaf, if any, holds a prefix of `q`. -/
def Fits (h : Heap V) (q : Key) (o : Option Addr) : Prop := ∀ l lc, o = some l → rdLeaf h l = .ok lc → getKey lc.key <+: q

theorem lpChildren_below {h : Heap V} {q : Key} (cs : List (Option Addr)) {Q : Option Addr → Prop} (hQ : ∀ o, Fits h q o → Q o) :
    ∀ (last o : Option Addr), Q last → lpChildren h (getTreeKey q) cs last = .ok o → Q o := by
  induction cs with
  | nil => intro last o hl ho; cases ho; exact hl
  | cons c cs ih =>
    intro last o hl ho
    cases c with
    | none => exact ih _ _ hl ho
    | some ch =>
      unfold lpChildren at ho
      obtain ⟨c, hc, ho⟩ := R.bind_ok ho
      split at ho
      · exact ih _ _ hl ho
      · rename_i l _
        obtain ⟨lc, hlc, ho⟩ := R.bind_ok ho
        refine ih _ _ ?_ ho
        split
        · rename_i hm
          refine hQ _ fun l' lc' e1 e2 => ?_
          cases e1
          rw [hlc] at e2
          cases e2
          rw [getKey_getTreeKey] at hm
          exact (hasPrefixB_iff _ _).1 hm
        · exact hl

theorem lpOwn_below {h : Heap V} {q : Key} {c : Cell V} {Q : Option Addr → Prop} (hQ : ∀ o, Fits h q o → Q o) (last o : Option Addr) (hl : Q last)
    (ho : lpOwn h (getTreeKey q) c last = .ok o) : Q o := by
  unfold lpOwn at ho
  split at ho
  · cases ho; exact hl
  · rename_i l _
    obtain ⟨lc, hlc, ho⟩ := R.bind_ok ho
    cases ho
    split
    · rename_i hm
      refine hQ _ fun l' lc' e1 e2 => ?_
      cases e1
      rw [hlc] at e2
      cases e2
      rw [getKey_getTreeKey] at hm
      exact (hasPrefixB_iff _ _).1 hm
    · exact hl

theorem lpLoop_below {h : Heap V} {q : Key} {Q : Option Addr → Prop} (hQ : ∀ o, Fits h q o → Q o) (fuel : Nat) :
    ∀ (a : Addr) (d : Nat) (last o : Option Addr), Q last → lpLoop h (getTreeKey q) fuel a d last = .ok o → Q o := by
  induction fuel with
  | zero => intro a d last o hl ho; cases ho
  | succ n ih =>
    intro a d last o hl ho
    unfold lpLoop at ho
    obtain ⟨c, hc, ho⟩ := R.bind_ok ho
    obtain ⟨b, hb, ho⟩ := R.bind_ok ho
    split at ho
    · cases ho; exact hl
    · split at ho
      · cases ho; exact hl
      · obtain ⟨l1, h1, ho⟩ := R.bind_ok ho
        obtain ⟨l2, h2, ho⟩ := R.bind_ok ho
        have hl2 := lpChildren_below _ hQ _ _ (lpOwn_below hQ _ _ hl h1) h2
        obtain ⟨b, hb, ho⟩ := R.bind_ok ho
        obtain ⟨p, hp, ho⟩ := R.bind_ok ho
        split at ho
        · cases ho; exact hl2
        · exact ih _ _ _ _ hl2 ho

theorem walkChildren_stops {rec0 : Addr → R (List (Key × V) × Bool)} {rec : (Key → V → Bool) → Addr → R (List (Key × V) × Bool)}
    (hrec : ∀ a l b, rec0 a = .ok (l, b) → b = false ∧ ∀ fn, rec fn a = .ok (runCalls fn l)) (cs : List (Option Addr)) :
    ∀ l b, walkChildren rec0 cs = .ok (l, b) → b = false ∧ ∀ fn, walkChildren (rec fn) cs = .ok (runCalls fn l) := by
  induction cs with
  | nil => intro l b h; cases h; exact ⟨rfl, fun fn => rfl⟩
  | cons c cs ih =>
    intro l b h
    cases c with
    | none => exact ih l b h
    | some ch =>
      unfold walkChildren at h
      obtain ⟨⟨l1, b1⟩, h1, h⟩ := R.bind_ok h
      obtain ⟨rfl, h2⟩ := hrec _ _ _ h1
      simp only [Bool.false_eq_true, if_false] at h
      obtain ⟨⟨l2, b2⟩, h3, h⟩ := R.bind_ok h
      obtain ⟨rfl, h4⟩ := ih _ _ h3
      cases h
      refine ⟨rfl, fun fn => ?_⟩
      unfold walkChildren
      rw [h2 fn, Except.bind_ok]
      simp only [runCalls, callsUntil_append, List.any_append]
      rw [h4 fn]
      by_cases hs : (l1.any fun e => fn e.1 e.2) = true
      · simp only [hs, if_true, Bool.true_or, pure, Except.pure]
      · rw [Bool.not_eq_true] at hs
        simp only [hs, Bool.false_eq_true, if_false, Bool.false_or, Except.bind_ok, runCalls, pure, Except.pure]

theorem recursiveWalk_stops (h : Heap V) (fuel : Nat) : ∀ (a : Addr) l b, recursiveWalk h (fun _ _ => false) fuel a = .ok (l, b) →
    b = false ∧ ∀ fn, recursiveWalk h fn fuel a = .ok (runCalls fn l) := by
  induction fuel with
  | zero => intro a l b h; cases h
  | succ n ih =>
    intro a l b hr
    unfold recursiveWalk at hr
    obtain ⟨c, hc, hr⟩ := R.bind_ok hr
    obtain ⟨⟨l1, b1⟩, h1, hr⟩ := R.bind_ok hr
    have h2 : b1 = false ∧ ∀ fn, walkOwn h c fn = .ok (runCalls fn l1) := by
      unfold walkOwn at h1 ⊢
      split at h1
      · obtain ⟨lc, hlc, h1⟩ := R.bind_ok h1
        cases h1
        refine ⟨rfl, fun fn => ?_⟩
        rw [hlc, Except.bind_ok]
        simp [runCalls, callsUntil, pure, Except.pure]
      · cases h1
        exact ⟨rfl, fun fn => rfl⟩
    obtain ⟨rfl, h2⟩ := h2
    simp only [Bool.false_eq_true, if_false] at hr
    obtain ⟨⟨l2, b2⟩, h3, hr⟩ := R.bind_ok hr
    obtain ⟨rfl, h4⟩ := walkChildren_stops (rec := fun fn => recursiveWalk h fn n) ih _ _ _ h3
    cases hr
    refine ⟨rfl, fun fn => ?_⟩
    unfold recursiveWalk
    rw [hc, Except.bind_ok, h2 fn, Except.bind_ok]
    simp only [runCalls, callsUntil_append, List.any_append]
    rw [h4 fn]
    by_cases hs : (l1.any fun e => fn e.1 e.2) = true
    · simp only [hs, if_true, Bool.true_or, pure, Except.pure]
    · rw [Bool.not_eq_true] at hs
      simp only [hs, Bool.false_eq_true, if_false, Bool.false_or, Except.bind_ok, runCalls, pure, Except.pure]

end Art
