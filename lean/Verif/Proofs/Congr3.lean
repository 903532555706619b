import Verif.Proofs.Congr2
/-
Reads depend only on the nodes that can be reached: the lower-bound iterators and the collectors.
-/
set_option autoImplicit false
set_option linter.unusedVariables false
set_option linter.unusedSimpArgs false
set_option linter.unusedSectionVars false
namespace Art
variable {V : Type} {h h' : Heap V} {S : Addr → Prop}

/-- Two computations agree, and their result satisfies `P`. -/
def CR {α : Type} (P : α → Prop) (x' x : R α) : Prop := x' = x ∧ ∀ a, x = .ok a → P a

theorem CR.pure {α : Type} {P : α → Prop} {a : α} (h : P a) : CR P (Pure.pure a) (Pure.pure a : R α) :=
  ⟨rfl, fun b hb => by cases hb; exact h⟩
theorem CR.ok {α : Type} {P : α → Prop} {a : α} (h : P a) : CR P (.ok a) (.ok a : R α) := CR.pure h
theorem CR.error {α : Type} {P : α → Prop} {e : Err} : CR P (.error e) (.error e : R α) :=
  ⟨rfl, fun b hb => by cases hb⟩
theorem CR.refl {α : Type} (x : R α) : CR (fun a => x = .ok a) x x := ⟨rfl, fun _ h => h⟩
theorem CR.of_eq {α : Type} {x' x : R α} (h : x' = x) : CR (fun _ => True) x' x := ⟨h, fun _ _ => trivial⟩
theorem CR.bind {α β : Type} {P : α → Prop} {Q : β → Prop} {x' x : R α} {f' f : α → R β}
    (hx : CR P x' x) (hf : ∀ a, P a → CR Q (f' a) (f a)) : CR Q (x' >>= f') (x >>= f) := by
  obtain ⟨rfl, h2⟩ := hx
  cases x' with
  | error e => exact CR.error
  | ok a => exact hf a (h2 a rfl)
theorem CR.ite {α : Type} {P : α → Prop} {p : Prop} [Decidable p] {x' x y' y : R α}
    (h1 : p → CR P x' x) (h2 : ¬p → CR P y' y) : CR P (if p then x' else y') (if p then x else y) := by
  by_cases hp : p
  · rw [if_pos hp, if_pos hp]; exact h1 hp
  · rw [if_neg hp, if_neg hp]; exact h2 hp

theorem StackIn.cons {a : Addr} {st : List (Option Addr)} (ha : S a) (hs : StackIn S st) : StackIn S (some a :: st) :=
  fun b hb => by rcases List.mem_cons.1 hb with hb | hb
                 · cases hb; exact ha
                 · exact hs b hb

theorem StackIn.ite {a : Addr} {st : List (Option Addr)} {p : Prop} [Decidable p] (ha : S a) (hs : StackIn S st) :
    StackIn S (if p then some a :: st else st) := by
  split
  · exact hs.cons ha
  · exact hs

theorem Same.cr_rd (hs : Same h h' S) {a : Addr} (ha : S a) {β : Type} {Q : β → Prop} {f' f : Cell V → R β}
    (hf : ∀ c k, (∀ b, c.Pts b → S b) → CR Q (f' (c.setCh k)) (f c)) : CR Q (Art.rd h' a >>= f') (Art.rd h a >>= f) := by
  obtain ⟨c, k, h1, h2, -, h3⟩ := hs.rd ha
  rw [h1, h2, Except.bind_ok, Except.bind_ok]
  exact hf c k h3

theorem Same.cr_rdLeaf (hs : Same h h' S) {a : Addr} (ha : S a) {β : Type} {Q : β → Prop} {f' f : LeafC V → R β}
    (hf : ∀ lc k, CR Q (f' { lc with ch := k }) (f lc)) : CR Q (Art.rdLeaf h' a >>= f') (Art.rdLeaf h a >>= f) := by
  rcases hs.rdLeaf ha with ⟨lc, k, e3, e4⟩ | ⟨e3, e4⟩
  · rw [e3, e4, Except.bind_ok, Except.bind_ok]; exact hf lc k
  · rw [e3, e4, Except.bind_error, Except.bind_error]; exact CR.error

theorem lbPush_congr (hs : Same h h' S) (path : Key) {a : Addr} (ha : S a) {st : List (Option Addr)} (hst : StackIn S st) :
    CR (StackIn S) (lbPush h' path a st) (lbPush h path a st) := by
  unfold lbPush
  refine CR.bind (CR.of_eq (nodeLeafKey_congr hs ha)) fun k _ => ?_
  cases k with
  | none => exact CR.pure (hst.cons ha)
  | some k => exact CR.pure (hst.ite ha)

theorem lbPushParent_congr (hs : Same h h' S) (path : Key) {p : Option Addr} (hp : ∀ a, p = some a → S a)
    {st : List (Option Addr)} (hst : StackIn S st) :
    CR (StackIn S) (lbPushParent h' path p st) (lbPushParent h path p st) := by
  unfold lbPushParent
  cases p with
  | none => exact CR.ok hst
  | some a =>
    simp only
    refine hs.cr_rd (hp a rfl) fun c k hc => ?_
    rw [Cell.nodeLeaf_setCh]
    cases hn : c.nodeLeaf with
    | none => exact CR.pure hst
    | some l => exact hs.cr_rdLeaf (hc l (.inl hn)) fun lc k => CR.pure (hst.ite (hc l (.inl hn)))

theorem lbPushChildren_congr (hs : Same h h' S) (path : Key) (c : Cell V) (k : Option ChanId) (hc : ∀ b, c.Pts b → S b)
    (lo : Nat) (strict : Bool) (n : Nat) {st : List (Option Addr)} (hst : StackIn S st) :
    CR (StackIn S) (lbPushChildren h' path (c.setCh k) lo strict n st) (lbPushChildren h path c lo strict n st) := by
  induction n generalizing st with
  | zero => exact CR.ok hst
  | succ n ih =>
    unfold lbPushChildren
    refine CR.ite (fun _ => CR.ok hst) fun _ => ?_
    rw [Cell.getChild_setCh]
    refine CR.bind (CR.refl _) fun o ho => ?_
    cases o with
    | none => exact CR.ite (fun _ => CR.error) fun _ => ih hst
    | some ch => exact CR.bind (lbPush_congr hs path (hc ch (Cell.getChild_pts ho)) hst) fun st' hst' => ih hst'

theorem lbPushBoth_congr (hs : Same h h' S) (path : Key) {a : Addr} (ha : S a) {p : Option Addr}
    (hp : ∀ a, p = some a → S a) {st : List (Option Addr)} (hst : StackIn S st) :
    CR (StackIn S) (lbPushBoth h' path a p st) (lbPushBoth h path a p st) :=
  CR.bind (lbPush_congr hs path ha hst) fun st' hst' => lbPushParent_congr hs path hp hst'

theorem lbCmp_setCh (c : Cell V) (k : Option ChanId) (pre : Key) (d : Nat) : lbCmp (c.setCh k) pre d = lbCmp c pre d := by
  unfold lbCmp
  simp only [Cell.isLeaf_setCh, Cell.part_setCh, Cell.partialLen_setCh]

theorem lbSkip_congr (hs : Same h h' S) (hl : h.length ≤ h'.length) {a : Addr} (ha : S a) (c : Cell V) (k : Option ChanId)
    (pre : Key) (seen : Bool) (d : Nat) :
    CR (fun _ => True) (lbSkip h' a (c.setCh k) pre seen d) (lbSkip h a c pre seen d) := by
  cases c with
  | leaf l => exact CR.ok trivial
  | inner nd => exact CR.bind (CR.of_eq (prefixMismatch_congr hs hl ha pre _ _)) fun m _ => CR.of_eq rfl

theorem lbNoChild_congr (hs : Same h h' S) (pre : Key) {a : Addr} (ha : S a) (c : Cell V) (k : Option ChanId)
    (hc : ∀ b, c.Pts b → S b) (lk : Option Key) {p : Option Addr} (hp : ∀ a, p = some a → S a)
    {st : List (Option Addr)} (hst : StackIn S st) :
    CR (StackIn S) (lbNoChild h' pre a (c.setCh k) lk p st) (lbNoChild h pre a c lk p st) := by
  unfold lbNoChild
  rw [Cell.numChildren_setCh]
  cases lk with
  | none =>
    refine CR.bind (lbPushChildren_congr hs pre c k hc _ _ _ hst) fun st' hst' => ?_
    cases p with
    | none => exact CR.error
    | some p => exact lbPushParent_congr hs pre hp hst'
  | some lk =>
    refine CR.bind (CR.ok (P := StackIn S) (hst.ite ha)) fun st' hst' => ?_
    cases p with
    | none => exact CR.error
    | some p => exact lbPushParent_congr hs pre hp hst'

theorem lbTakeAll_congr (hs : Same h h' S) (pre : Key) {a : Addr} (ha : S a) (c : Cell V) (k : Option ChanId)
    (hc : ∀ b, c.Pts b → S b) (lk : Option Key) {p : Option Addr} (hp : ∀ a, p = some a → S a)
    {st : List (Option Addr)} (hst : StackIn S st) :
    CR (StackIn S) (lbTakeAll h' pre a (c.setCh k) lk p st) (lbTakeAll h pre a c lk p st) := by
  unfold lbTakeAll
  rw [Cell.numChildren_setCh]
  refine CR.ite (fun _ => CR.bind (CR.ok (P := StackIn S) (hst.cons ha)) fun st' hst' => lbPushParent_congr hs pre hp hst')
    fun _ => CR.bind (lbPushChildren_congr hs pre c k hc _ _ _ hst) fun st' hst' => lbPushParent_congr hs pre hp hst'

theorem parentLeafKey_congr (hs : Same h h' S) {p : Option Addr} (hp : ∀ a, p = some a → S a) :
    parentLeafKey h' p = parentLeafKey h p := by
  cases p with
  | none => rfl
  | some p => exact nodeLeafKey_congr hs (hp p rfl)

theorem lbLoop_congr (hs : Same h h' S) (hl : h.length ≤ h'.length) (pre : Key) (n : Nat) (node parent : Option Addr)
    (d : Nat) (seen : Bool) {st : List (Option Addr)} (hn : ∀ a, node = some a → S a) (hp : ∀ a, parent = some a → S a)
    (hst : StackIn S st) :
    CR (StackIn S) (lbLoop h' pre n node parent d seen st) (lbLoop h pre n node parent d seen st) := by
  induction n generalizing node parent d seen st with
  | zero => rw [lbLoop.eq_def, lbLoop.eq_def]; exact CR.error
  | succ n ih =>
    rw [lbLoop.eq_def, lbLoop.eq_def]
    simp only
    cases node with
    | none =>
      cases parent with
      | none => exact CR.ok hst
      | some p =>
        refine hs.cr_rd (hp p rfl) fun c k hc => ?_
        rw [Cell.nodeLeaf_setCh]
        cases hnl : c.nodeLeaf with
        | none => exact CR.pure hst
        | some l => exact CR.pure (hst.cons (hc l (.inl hnl)))
    | some a =>
      have ha := hn a rfl
      refine hs.cr_rd ha fun c k hc => ?_
      simp only [Cell.isLeaf_setCh, lbCmp_setCh, Cell.getLowerBoundCh_setCh,
        Cell.numChildren_setCh, Cell.getKeyAtIdx_setCh, Cell.getChild_setCh]
      refine CR.bind (CR.of_eq rfl) fun pc _ => ?_
      refine CR.ite (fun _ => lbPushBoth_congr hs pre ha hp hst) fun _ => ?_
      refine CR.ite (fun _ => lbPushParent_congr hs pre hp hst) fun _ => ?_
      refine CR.bind (CR.of_eq (nodeLeafKey_congr hs ha)) fun lk _ => ?_
      refine CR.ite (fun _ => lbPushBoth_congr hs pre ha hp hst) fun _ => ?_
      refine CR.bind (lbSkip_congr hs hl ha c k pre seen d) fun p _ => ?_
      obtain ⟨stop, seen, d⟩ := p
      simp only
      refine CR.ite (fun _ => CR.pure hst) fun _ => ?_
      refine CR.ite (fun _ => lbPushBoth_congr hs pre ha hp hst) fun _ => ?_
      refine CR.bind (CR.of_eq rfl) fun b _ => ?_
      refine CR.bind (CR.of_eq rfl) fun idx0 _ => ?_
      refine CR.ite (fun _ => CR.pure hst) fun _ => ?_
      refine CR.ite (fun _ => lbNoChild_congr hs pre ha c k hc lk hp hst) fun _ => ?_
      refine CR.bind (CR.of_eq (parentLeafKey_congr hs hp)) fun pl _ => ?_
      refine CR.ite (fun _ => lbTakeAll_congr hs pre ha c k hc lk hp hst) fun _ => ?_
      refine CR.bind (lbPushChildren_congr hs pre c k hc _ _ _ hst) fun st' hst' => ?_
      refine CR.bind (CR.of_eq rfl) fun kb _ => ?_
      refine CR.bind (CR.refl _) fun child hch => ?_
      exact ih _ _ _ _ (fun b hb => by subst hb; exact hc b (Cell.getChild_pts hch))
        (fun b hb => by cases hb; exact ha) hst'

theorem seekLowerBound_congr (hs : Same h h' S) (hl : h.length ≤ h'.length) {root : Addr} (hr : S root) (k : Key) :
    CR (StackIn S) (seekLowerBound h' root k) (seekLowerBound h root k) := by
  unfold seekLowerBound
  refine CR.ite (fun _ => CR.ok fun a ha => by simp at ha; exact ha ▸ hr) fun _ => ?_
  exact lbLoop_congr hs hl _ _ _ _ _ _ (fun b hb => by cases hb; exact hr) (fun b hb => by cases hb)
    (fun a ha => by cases ha)

/-! ### The reverse iterator -/

theorem mem_mapM_getChild (c : Cell V) (l : List Nat) (r : List (Option Addr))
    (hr : l.mapM (fun (i : Nat) => c.getChild i) = .ok r) (b : Addr) (hb : some b ∈ r) : c.Pts b := by
  induction l generalizing r with
  | nil => simp only [List.mapM_nil] at hr; cases hr; cases hb
  | cons i l ih =>
    rw [List.mapM_cons] at hr
    obtain ⟨o, ho, hr⟩ := R.bind_ok hr
    obtain ⟨r', hr', hr⟩ := R.bind_ok hr
    cases hr
    rcases List.mem_cons.1 hb with hb | hb
    · subst hb; exact Cell.getChild_pts ho
    · exact ih r' hr' hb

theorem revCmp_setCh (c : Cell V) (k : Option ChanId) (pre extra : Key) (d : Nat) :
    revCmp (c.setCh k) pre extra d = revCmp c pre extra d := by
  unfold revCmp
  simp only [Cell.part_setCh, Cell.partialLen_setCh]

theorem revPushLeaf_setCh (c : Cell V) (k : Option ChanId) (st : List (Option Addr)) :
    revPushLeaf (c.setCh k) st = revPushLeaf c st := by
  unfold revPushLeaf
  rw [Cell.nodeLeaf_setCh]

theorem StackIn.pushLeaf {c : Cell V} (hc : ∀ b, c.Pts b → S b) {st : List (Option Addr)} (hst : StackIn S st) :
    StackIn S (revPushLeaf c st) := by
  unfold revPushLeaf
  cases hnl : c.nodeLeaf with
  | none => exact hst
  | some l => exact hst.cons (hc l (.inl hnl))

theorem revSkip_congr (hs : Same h h' S) (hl : h.length ≤ h'.length) {a : Addr} (ha : S a) (c : Cell V) (k : Option ChanId)
    (pre : Key) (seen : Bool) (d : Nat) :
    CR (fun _ => True) (revSkip h' a (c.setCh k) pre seen d) (revSkip h a c pre seen d) := by
  unfold revSkip
  rw [Cell.partialLen_setCh]
  exact CR.ite (fun _ => CR.bind (CR.of_eq (prefixMismatch_congr hs hl ha pre _ _)) fun m _ => CR.of_eq rfl)
    fun _ => CR.ok trivial

theorem revPick_setCh (c : Cell V) (k : Option ChanId) (pre : Key) (d : Nat) (seen : Bool) :
    revPick (c.setCh k) pre d seen = revPick c pre d seen := by
  unfold revPick
  simp only [Cell.getLowerBoundCh_setCh, Cell.numChildren_setCh, Cell.getKeyAtIdx_setCh]

theorem revLeafDone_setCh (c : Cell V) (k : Option ChanId) (lk : Option Key) (key : Key) :
    revLeafDone (c.setCh k) lk key = revLeafDone c lk key := by
  unfold revLeafDone
  rw [Cell.isLeaf_setCh]

theorem revLoop_congr (hs : Same h h' S) (hl : h.length ≤ h'.length) (key pre extra : Key) (n : Nat) (node : Option Addr)
    (d : Nat) (seen : Bool) {st : List (Option Addr)} (ex : List Addr) (hn : ∀ a, node = some a → S a)
    (hst : StackIn S st) :
    CR (fun p => StackIn S p.1) (revLoop h' key pre extra n node d seen st ex) (revLoop h key pre extra n node d seen st ex) := by
  induction n generalizing node d seen st ex with
  | zero => rw [revLoop.eq_def, revLoop.eq_def]; exact CR.error
  | succ n ih =>
    rw [revLoop.eq_def, revLoop.eq_def]
    simp only
    cases node with
    | none => exact CR.ok hst
    | some a =>
      have ha := hn a rfl
      refine hs.cr_rd ha fun c k hc => ?_
      simp only [revCmp_setCh, revPushLeaf_setCh, revLeafDone_setCh, revPick_setCh,
        Cell.numChildren_setCh, Cell.getChild_setCh, Cell.nodeLeaf_setCh]
      refine CR.bind (CR.of_eq rfl) fun pc _ => ?_
      refine CR.ite (fun _ => CR.pure (hst.cons ha)) fun _ => ?_
      refine CR.ite (fun _ => CR.pure (hst.pushLeaf hc)) fun _ => ?_
      refine CR.bind (CR.of_eq (nodeLeafKey_congr hs ha)) fun lk _ => ?_
      refine CR.bind (CR.of_eq rfl) fun done _ => ?_
      refine CR.ite (fun _ => CR.pure (hst.cons ha)) fun _ => ?_
      refine CR.bind (revSkip_congr hs hl ha c k pre seen d) fun p _ => ?_
      obtain ⟨stop, seen, d⟩ := p
      simp only
      refine CR.ite (fun _ => CR.pure (hst.pushLeaf hc)) fun _ => ?_
      refine CR.ite (fun _ => CR.pure (hst.cons ha)) fun _ => ?_
      have hst' : StackIn S (if c.nodeLeaf.isSome = true then some a :: st else st) := hst.ite ha
      refine CR.bind (CR.of_eq rfl) fun p _ => ?_
      obtain ⟨idx, seen⟩ := p
      simp only
      refine CR.bind (CR.refl _) fun chs hchs => ?_
      have hst2 : StackIn S ((chs.filterMap fun (o : Option Addr) => o.map some).reverse ++
          (if c.nodeLeaf.isSome = true then some a :: st else st)) := by
        intro b hb
        rcases List.mem_append.1 hb with hb | hb
        · obtain ⟨o, ho, hob⟩ := List.mem_filterMap.1 (List.mem_reverse.1 hb)
          cases o with
          | none => cases hob
          | some x => cases hob; exact hc _ (mem_mapM_getChild c _ _ hchs _ ho)
        · exact hst' b hb
      refine CR.ite (fun _ => CR.pure hst2) fun _ => ?_
      refine CR.bind (CR.refl _) fun child hch => ?_
      exact ih _ _ _ _ (fun b hb => by subst hb; exact hc b (Cell.getChild_pts hch)) hst2

/-- The nodes a reverse iterator holds are in the set. -/
def RevIter.In (S : Addr → Prop) (it : RevIter) : Prop :=
  (∀ a, it.node = some a → S a) ∧ ∀ st, it.stack = some st → StackIn S st

theorem seekReverseLowerBound_congr (hs : Same h h' S) (hl : h.length ≤ h'.length) {it : RevIter} (hi : it.In S)
    (key extra : Key) :
    CR (RevIter.In S) (seekReverseLowerBound h' it key extra) (seekReverseLowerBound h it key extra) := by
  unfold seekReverseLowerBound
  refine CR.bind (revLoop_congr hs hl _ _ _ _ _ _ _ _ hi.1 fun a ha => by cases ha) fun p hp => ?_
  exact CR.pure ⟨fun a ha => (by cases ha), fun st hst => by cases hst; exact hp⟩

theorem revSeekPrefix_congr (hs : Same h h' S) (hl : h.length ≤ h'.length) {it : RevIter} (hi : it.In S) (pre : Key) :
    CR (RevIter.In S) (revSeekPrefix h' it pre) (revSeekPrefix h it pre) := by
  unfold revSeekPrefix
  cases hn : it.node with
  | none => exact CR.error
  | some a =>
    refine CR.bind (P := S) (seekLoop_congr hs hl pre _ a 0 (hi.1 a hn)) fun b hb => ?_
    exact CR.pure ⟨fun a ha => (by cases ha; exact hb), fun st hst => by
      cases hst; intro a ha; simp at ha; exact ha ▸ hb⟩

theorem revPrevious_congr (hs : Same h h' S) (n : Nat) {it : RevIter} (hi : it.In S) :
    CR (fun p => p.2.In S) (revPrevious h' n it) (revPrevious h n it) := by
  unfold revPrevious
  refine CR.bind (P := fun p : Option (Key × V) × List (Option Addr) => StackIn S p.2) (revNext_congr hs _ _ _ _ ?_) fun p hp => ?_
  · cases hst : it.stack with
    | some s => exact hi.2 s hst
    | none =>
      cases hn : it.node with
      | none => intro b hb; cases hb
      | some a => intro b hb; simp at hb; subst hb; exact hi.1 _ hn
  · exact CR.pure ⟨hi.1, fun st hst => by cases hst; exact hp⟩

/-! ### Collectors -/

theorem iterCollect_congr (hs : Same h h' S) (n : Nat) (it : Iter) (hi : it.In S) : iterCollect h' n it = iterCollect h n it := by
  induction n generalizing it with
  | zero => rfl
  | succ n ih =>
    unfold iterCollect
    refine (CR.bind (Q := fun _ => True) (iterNext_congr hs (n + 1) it hi) fun p hp => ?_).1
    obtain ⟨r, it'⟩ := p
    cases r with
    | none => exact CR.of_eq rfl
    | some kv => exact CR.bind (CR.of_eq (ih _ hp)) fun _ _ => CR.of_eq rfl

theorem pathCollect_congr (hs : Same h h' S) (n : Nat) (it : PathIter) (hi : ∀ a ∈ it.stack, S a) :
    pathCollect h' n it = pathCollect h n it := by
  induction n generalizing it with
  | zero => rfl
  | succ n ih =>
    unfold pathCollect
    refine (CR.bind (Q := fun _ => True) (pathNext_congr hs (n + 1) it hi) fun p hp => ?_).1
    obtain ⟨r, it'⟩ := p
    cases r with
    | none => exact CR.of_eq rfl
    | some kv => exact CR.bind (CR.of_eq (ih _ hp)) fun _ _ => CR.of_eq rfl

theorem lbCollect_congr (hs : Same h h' S) (n : Nat) (st : List (Option Addr)) (hi : StackIn S st) :
    lbCollect h' n st = lbCollect h n st := by
  induction n generalizing st with
  | zero => rfl
  | succ n ih =>
    unfold lbCollect
    refine (CR.bind (Q := fun _ => True) (lbNext_congr hs (n + 1) st hi) fun p hp => ?_).1
    obtain ⟨r, it'⟩ := p
    cases r with
    | none => exact CR.of_eq rfl
    | some kv => exact CR.bind (CR.of_eq (ih _ hp)) fun _ _ => CR.of_eq rfl

theorem revCollect_congr (hs : Same h h' S) (n : Nat) (it : RevIter) (hi : it.In S) :
    revCollect h' n it = revCollect h n it := by
  induction n generalizing it with
  | zero => rfl
  | succ n ih =>
    unfold revCollect
    refine (CR.bind (Q := fun _ => True) (revPrevious_congr hs (n + 1) hi) fun p hp => ?_).1
    obtain ⟨r, it'⟩ := p
    cases r with
    | none => exact CR.of_eq rfl
    | some kv => exact CR.bind (CR.of_eq (ih _ hp)) fun _ _ => CR.of_eq rfl

end Art
