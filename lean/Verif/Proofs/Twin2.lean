import Verif.Proofs.Twin
import Verif.Proofs.Rank
/-
A copied root answers seeks like the original.  The readers run side by side on the two roots; `Swap` sends the
nodes of the original to those of the copy (all but the root are the same).
-/
set_option autoImplicit false
set_option linter.unusedVariables false
set_option linter.unusedSimpArgs false
set_option linter.unusedSectionVars false
namespace Art
variable {V : Type} [Inhabited V]

/-! ### Computations side by side -/

/-- Both fail in the same way, or both succeed with related results. -/
inductive Side {α β : Type} (Q : α → β → Prop) : R α → R β → Prop
  | error (e : Err) : Side Q (.error e) (.error e)
  | ok {a : α} {b : β} (h : Q a b) : Side Q (.ok a) (.ok b)

section
variable {α β γ δ : Type} {Q : α → β → Prop} {Q' : γ → δ → Prop}

theorem Side.bind {x : R α} {y : R β} {f : α → R γ} {g : β → R δ} (h : Side Q x y)
    (hf : ∀ a b, Q a b → Side Q' (f a) (g b)) : Side Q' (x >>= f) (y >>= g) := by
  cases h with
  | error e => exact .error e
  | ok h => exact hf _ _ h

theorem Side.pure {a : α} {b : β} (h : Q a b) : Side Q (Pure.pure a : R α) (Pure.pure b : R β) := .ok h

theorem Side.refl (x : R α) : Side (fun a b => a = b ∧ x = .ok b) x x := by
  cases x with
  | error e => exact .error e
  | ok a => exact .ok ⟨rfl, rfl⟩

theorem Side.of_eq {x y : R α} (h : x = y) : Side (fun a b => a = b ∧ y = .ok b) x y := h ▸ .refl x

theorem Side.eq {x y : R α} (h : Side (fun a b => a = b) x y) : x = y := by
  cases h with
  | error e => rfl
  | ok h => rw [h]

theorem Side.ite {p : Prop} [Decidable p] {x x' : R α} {y y' : R β} (h1 : p → Side Q x y) (h2 : ¬ p → Side Q x' y') :
    Side Q (if p then x else x') (if p then y else y') := by
  split
  · exact h1 ‹_›
  · exact h2 ‹_›
end

/-! ### Cells that differ where nobody looks -/

/-- The cells differ only in the channel and in a prefix that is not read. -/
inductive Cell.Alike (c : Cell V) : Cell V → Prop
  | same : Cell.Alike c c
  | copy (n : Inner) (p : List Byte) (ch : Option ChanId) (h : c = .inner n) (hp : p = n.part ∨ n.partialLen = 0) :
    Cell.Alike c (.inner { n with part := p, ch := ch })

theorem lowerBound48_part (n : Inner) (p : List Byte) (k : Option ChanId) (f i : Nat) :
    Inner.lowerBound48 { n with part := p, ch := k } f i = n.lowerBound48 f i := by
  induction f generalizing i with
  | zero => rfl
  | succ f ih =>
    unfold Inner.lowerBound48
    split
    · have e1 : ∀ i, Inner.getKeyAtIdx { n with part := p, ch := k } i = n.getKeyAtIdx i := fun _ => rfl
      have e2 : ∀ i, Inner.getChild { n with part := p, ch := k } i = n.getChild i := fun _ => rfl
      simp only [e1, e2, ih]
    · rfl

theorem lowerBound256_part (n : Inner) (p : List Byte) (k : Option ChanId) (f i : Nat) :
    Inner.lowerBound256 { n with part := p, ch := k } f i = n.lowerBound256 f i := by
  induction f generalizing i with
  | zero => rfl
  | succ f ih =>
    unfold Inner.lowerBound256
    split
    · have e2 : ∀ i, Inner.getChild { n with part := p, ch := k } i = n.getChild i := fun _ => rfl
      simp only [e2, ih]
    · rfl

section
variable {c c' : Cell V} (hl : c.Alike c')
include hl

theorem Cell.Alike.isLeaf : c'.isLeaf = c.isLeaf := by cases hl with | same => rfl | copy n p ch h hp => subst h; rfl
theorem Cell.Alike.partialLen : c'.partialLen = c.partialLen := by cases hl with | same => rfl | copy n p ch h hp => subst h; rfl
theorem Cell.Alike.nodeLeaf : c'.nodeLeaf = c.nodeLeaf := by cases hl with | same => rfl | copy n p ch h hp => subst h; rfl
theorem Cell.Alike.numChildren : c'.numChildren = c.numChildren := by cases hl with | same => rfl | copy n p ch h hp => subst h; rfl
theorem Cell.Alike.getChild (i : Int) : c'.getChild i = c.getChild i := by cases hl with | same => rfl | copy n p ch h hp => subst h; rfl
theorem Cell.Alike.getLowerBoundCh (b : Byte) : c'.getLowerBoundCh b = c.getLowerBoundCh b := by
  cases hl with
  | same => rfl
  | copy n p ch h hp =>
    subst h
    show Inner.getLowerBoundCh { n with part := p, ch := ch } b = n.getLowerBoundCh b
    unfold Inner.getLowerBoundCh
    simp only [lowerBound48_part, lowerBound256_part]
theorem Cell.Alike.getKeyAtIdx (i : Nat) : c'.getKeyAtIdx i = c.getKeyAtIdx i := by
  cases hl with | same => rfl | copy n p ch h hp => subst h; rfl
theorem Cell.Alike.slice : goSlice c'.part 0 c'.partialLen = goSlice c.part 0 c.partialLen := by
  cases hl with
  | same => rfl
  | copy n p ch h hp =>
    subst h
    rcases hp with rfl | hp
    · rfl
    · have h3 : Cell.partialLen (V := V) (.inner { n with part := p, ch := ch }) = 0 := hp
      have h4 : Cell.partialLen (V := V) (.inner n) = 0 := hp
      rw [h3, h4]
      simp [goSlice]
theorem Cell.Alike.lbCmp (pre : Key) (d : Nat) : Art.lbCmp c' pre d = Art.lbCmp c pre d := by
  unfold Art.lbCmp
  rw [hl.slice, hl.isLeaf, hl.partialLen]
theorem Cell.Alike.revCmp (pre extra : Key) (d : Nat) : Art.revCmp c' pre extra d = Art.revCmp c pre extra d := by
  unfold Art.revCmp
  rw [hl.slice, hl.partialLen]
theorem Cell.Alike.revPushLeaf (st : List (Option Addr)) : Art.revPushLeaf c' st = Art.revPushLeaf c st := by
  unfold Art.revPushLeaf
  rw [hl.nodeLeaf]
theorem Cell.Alike.revLeafDone (lk : Option Key) (key : Key) : Art.revLeafDone c' lk key = Art.revLeafDone c lk key := by
  unfold Art.revLeafDone
  rw [hl.isLeaf]
theorem Cell.Alike.revPick (pre : Key) (d : Nat) (seen : Bool) : Art.revPick c' pre d seen = Art.revPick c pre d seen := by
  unfold Art.revPick
  simp only [hl.getLowerBoundCh, hl.numChildren, hl.getKeyAtIdx]
end

/-! ### The nodes of the two trees -/

/-- The original root is replaced by the copy. -/
def swapAt (r r' : Addr) (a : Addr) : Addr := if a = r then r' else a

/-- `Y` is the set of nodes of the tree with root `r`; the copy of the root at `r'` is not one of them, and no node
of the tree points to the root. -/
structure Swap (h : Heap V) (r r' : Addr) (n : Inner) (Y : Addr → Prop) : Prop where
  twin : Twin h r r' n
  root : Y r
  fresh : ¬ Y r'
  closed : ∀ a, Y a → ∃ c, h[a]? = some c ∧ ∀ b, c.Pts b → Y b ∧ b ≠ r

section
variable {h : Heap V} {r r' : Addr} {n : Inner} {Y : Addr → Prop}

/-- Related stacks. -/
def StackSwap (r r' : Addr) (Y : Addr → Prop) (st' st : List (Option Addr)) : Prop :=
  st' = st.map (Option.map (swapAt r r')) ∧ StackIn Y st

theorem StackSwap.nil : StackSwap r r' Y [] [] := ⟨rfl, fun a ha => by cases ha⟩

theorem StackSwap.cons {a : Addr} {st' st : List (Option Addr)} (hs : StackSwap r r' Y st' st) (ha : Y a) :
    StackSwap r r' Y (some (swapAt r r' a) :: st') (some a :: st) :=
  ⟨by rw [hs.1]; rfl, hs.2.cons ha⟩

theorem swapAt_ne {a : Addr} (ha : a ≠ r) : swapAt r r' a = a := by simp [swapAt, ha]
theorem swapAt_self : swapAt r r' r = r' := by simp [swapAt]

theorem StackSwap.consNode {a : Addr} {st' st : List (Option Addr)} (hs : StackSwap r r' Y st' st) (ha : Y a ∧ a ≠ r) :
    StackSwap r r' Y (some a :: st') (some a :: st) := by
  have := hs.cons ha.1
  rw [swapAt_ne ha.2] at this
  exact this

theorem StackSwap.append {l st' st : List (Option Addr)} (hs : StackSwap r r' Y st' st)
    (hl : ∀ a, some a ∈ l → Y a ∧ a ≠ r) : StackSwap r r' Y (l ++ st') (l ++ st) := by
  refine ⟨?_, fun a ha => ?_⟩
  · rw [List.map_append, hs.1]
    congr 1
    symm
    refine (List.map_congr_left (g := _root_.id) fun o ho => ?_).trans (List.map_id _)
    cases o with
    | none => rfl
    | some a => simp [swapAt_ne (hl a ho).2]
  · rcases List.mem_append.1 ha with ha | ha
    · exact (hl a ha).1
    · exact hs.2 a ha

theorem StackSwap.ite {a : Addr} {p : Prop} [Decidable p] {st' st : List (Option Addr)} (hs : StackSwap r r' Y st' st) (ha : Y a) :
    StackSwap r r' Y (if p then some (swapAt r r' a) :: st' else st') (if p then some a :: st else st) := by
  split
  · exact hs.cons ha
  · exact hs

theorem StackSwap.iteNode {a : Addr} {p : Prop} [Decidable p] {st' st : List (Option Addr)} (hs : StackSwap r r' Y st' st) (ha : Y a ∧ a ≠ r) :
    StackSwap r r' Y (if p then some a :: st' else st') (if p then some a :: st else st) := by
  split
  · exact hs.consNode ha
  · exact hs

variable (hw : Swap h r r' n Y)
include hw

theorem Swap.cell {a : Addr} (ha : Y a) :
    ∃ c c', h[a]? = some c ∧ h[swapAt r r' a]? = some c' ∧ c.Alike c' ∧ ∀ b, c.Pts b → Y b ∧ b ≠ r := by
  obtain ⟨c, hc, hp⟩ := hw.closed a ha
  by_cases har : a = r
  · subst har
    obtain ⟨p, ch, h2, hp2⟩ := hw.twin.copy
    rw [hw.twin.orig] at hc; cases hc
    exact ⟨_, _, hw.twin.orig, by rw [swapAt_self]; exact h2, .copy n p ch rfl hp2, hp⟩
  · exact ⟨c, c, hc, by rw [swapAt_ne har]; exact hc, .same, hp⟩

theorem Swap.rd {α β : Type} {Q : α → β → Prop} {a : Addr} (ha : Y a) {f : Cell V → R α} {g : Cell V → R β}
    (hf : ∀ c c' : Cell V, c.Alike c' → (∀ b, c.Pts b → Y b ∧ b ≠ r) → Side Q (f c') (g c)) :
    Side Q (Art.rd h (swapAt r r' a) >>= f) (Art.rd h a >>= g) := by
  obtain ⟨c, c', h1, h2, h3, h4⟩ := hw.cell ha
  simp only [Art.rd, h1, h2, Except.bind_ok]
  exact hf c c' h3 h4

theorem Swap.nodeLeafKey {a : Addr} (ha : Y a) : nodeLeafKey h (swapAt r r' a) = nodeLeafKey h a := by
  obtain ⟨c, c', h1, h2, h3, h4⟩ := hw.cell ha
  simp only [Art.nodeLeafKey, Art.rd, h1, h2, Except.bind_ok, h3.nodeLeaf]

theorem Swap.prefixMismatch {a : Addr} (ha : Y a) (key : Key) (kl d : Nat) :
    prefixMismatch h (swapAt r r' a) key kl d = prefixMismatch h a key kl d := by
  by_cases har : a = r
  · subst har; rw [swapAt_self]; exact prefixMismatch_twin hw.twin key kl d
  · rw [swapAt_ne har]

/-! ### SeekLowerBound -/

theorem Swap.lbPush (path : Key) {a : Addr} (ha : Y a) {st' st : List (Option Addr)} (hs : StackSwap r r' Y st' st) :
    Side (StackSwap r r' Y) (lbPush h path (swapAt r r' a) st') (lbPush h path a st) := by
  unfold Art.lbPush
  refine Side.bind (Side.of_eq (hw.nodeLeafKey ha)) fun o o' ho => ?_
  obtain ⟨rfl, -⟩ := ho
  cases o with
  | none => exact .pure (hs.cons ha)
  | some k => exact .pure (hs.ite ha)

theorem Swap.lbPushNode (path : Key) {a : Addr} (ha : Y a ∧ a ≠ r) {st' st : List (Option Addr)} (hs : StackSwap r r' Y st' st) :
    Side (StackSwap r r' Y) (Art.lbPush h path a st') (Art.lbPush h path a st) := by
  have := hw.lbPush path ha.1 hs
  rw [swapAt_ne ha.2] at this
  exact this

theorem Swap.lbPushParent (path : Key) {p : Option Addr} (hp : ∀ a, p = some a → Y a) {st' st : List (Option Addr)}
    (hs : StackSwap r r' Y st' st) :
    Side (StackSwap r r' Y) (lbPushParent h path (p.map (swapAt r r')) st') (lbPushParent h path p st) := by
  unfold Art.lbPushParent
  cases p with
  | none => exact .ok hs
  | some a =>
    refine hw.rd (hp a rfl) fun c c' hl hc => ?_
    rw [hl.nodeLeaf]
    cases hn : c.nodeLeaf with
    | none => exact .pure hs
    | some l => exact Side.bind (Side.refl _) fun _ _ ho => by obtain ⟨rfl, -⟩ := ho; exact .pure (hs.iteNode (hc l (.inl hn)))

theorem Swap.lbPushChildren (path : Key) {c c' : Cell V} (hl : c.Alike c') (hc : ∀ b, c.Pts b → Y b ∧ b ≠ r)
    (lo : Nat) (strict : Bool) (k : Nat) {st' st : List (Option Addr)} (hs : StackSwap r r' Y st' st) :
    Side (StackSwap r r' Y) (lbPushChildren h path c' lo strict k st') (lbPushChildren h path c lo strict k st) := by
  induction k generalizing st' st with
  | zero => exact .ok hs
  | succ k ih =>
    unfold Art.lbPushChildren
    refine .ite (fun _ => .ok hs) fun _ => ?_
    rw [hl.getChild]
    refine Side.bind (Side.refl _) fun o o' ho => ?_
    obtain ⟨rfl, ho⟩ := ho
    cases o with
    | none => exact .ite (fun _ => .error _) fun _ => ih hs
    | some ch => exact Side.bind (hw.lbPushNode path (hc ch (Cell.getChild_pts ho)) hs) fun _ _ h2 => ih h2

theorem Swap.lbPushBoth (path : Key) {a : Addr} (ha : Y a) {p : Option Addr} (hp : ∀ a, p = some a → Y a)
    {st' st : List (Option Addr)} (hs : StackSwap r r' Y st' st) :
    Side (StackSwap r r' Y) (lbPushBoth h path (swapAt r r' a) (p.map (swapAt r r')) st') (lbPushBoth h path a p st) :=
  Side.bind (hw.lbPush path ha hs) fun _ _ h2 => hw.lbPushParent path hp h2

theorem Swap.lbSkip {a : Addr} (ha : Y a) {c c' : Cell V} (hl : c.Alike c') (pre : Key) (seen : Bool) (d : Nat) :
    lbSkip h (swapAt r r' a) c' pre seen d = lbSkip h a c pre seen d := by
  cases hl with
  | same => cases c <;> simp [Art.lbSkip, hw.prefixMismatch ha]
  | copy n p ch h hp => subst h; simp [Art.lbSkip, hw.prefixMismatch ha]

theorem Swap.lbNoChild (path : Key) {a : Addr} (ha : Y a) {c c' : Cell V} (hl : c.Alike c') (hc : ∀ b, c.Pts b → Y b ∧ b ≠ r)
    (lk : Option Key) {p : Option Addr} (hp : ∀ a, p = some a → Y a) {st' st : List (Option Addr)} (hs : StackSwap r r' Y st' st) :
    Side (StackSwap r r' Y) (lbNoChild h path (swapAt r r' a) c' lk (p.map (swapAt r r')) st') (lbNoChild h path a c lk p st) := by
  unfold Art.lbNoChild
  rw [hl.numChildren]
  cases lk with
  | none =>
    refine Side.bind (hw.lbPushChildren path hl hc _ _ _ hs) fun st1 st2 h2 => ?_
    cases p with
    | none => exact .error _
    | some p => exact hw.lbPushParent path hp h2
  | some k =>
    refine Side.bind (Side.ok (hs.ite ha)) fun st1 st2 h2 => ?_
    cases p with
    | none => exact .error _
    | some p => exact hw.lbPushParent path hp h2

theorem Swap.lbTakeAll (path : Key) {a : Addr} (ha : Y a) {c c' : Cell V} (hl : c.Alike c') (hc : ∀ b, c.Pts b → Y b ∧ b ≠ r)
    (lk : Option Key) {p : Option Addr} (hp : ∀ a, p = some a → Y a) {st' st : List (Option Addr)} (hs : StackSwap r r' Y st' st) :
    Side (StackSwap r r' Y) (lbTakeAll h path (swapAt r r' a) c' lk (p.map (swapAt r r')) st') (lbTakeAll h path a c lk p st) := by
  unfold Art.lbTakeAll
  rw [hl.numChildren]
  exact .ite (fun _ => Side.bind (Side.ok (hs.cons ha)) fun _ _ h2 => hw.lbPushParent path hp h2)
    fun _ => Side.bind (hw.lbPushChildren path hl hc _ _ _ hs) fun _ _ h2 => hw.lbPushParent path hp h2

theorem Swap.parentLeafKey {p : Option Addr} (hp : ∀ a, p = some a → Y a) :
    parentLeafKey h (p.map (swapAt r r')) = parentLeafKey h p := by
  cases p with
  | none => rfl
  | some p => exact hw.nodeLeafKey (hp p rfl)

theorem Swap.child {c : Cell V} (hc : ∀ b, c.Pts b → Y b ∧ b ≠ r) {i : Int} {o : Option Addr} (ho : c.getChild i = .ok o) :
    o = o.map (swapAt r r') ∧ ∀ a, o = some a → Y a := by
  cases o with
  | none => exact ⟨rfl, fun a ha => by cases ha⟩
  | some b =>
    have := hc b (Cell.getChild_pts ho)
    exact ⟨by simp [swapAt_ne this.2], fun a ha => by cases ha; exact this.1⟩

theorem Swap.lbLoop (pre : Key) (f : Nat) (node parent : Option Addr) (d : Nat) (seen : Bool) {st' st : List (Option Addr)}
    (hn : ∀ a, node = some a → Y a) (hp : ∀ a, parent = some a → Y a) (hs : StackSwap r r' Y st' st) :
    Side (StackSwap r r' Y) (lbLoop h pre f (node.map (swapAt r r')) (parent.map (swapAt r r')) d seen st')
      (lbLoop h pre f node parent d seen st) := by
  induction f generalizing node parent d seen st' st with
  | zero => rw [lbLoop.eq_def, lbLoop.eq_def]; exact .error _
  | succ f ih =>
    rw [lbLoop.eq_def, lbLoop.eq_def]
    simp only
    cases node with
    | none =>
      cases parent with
      | none => exact .ok hs
      | some p =>
        refine hw.rd (hp p rfl) fun c c' hl hc => ?_
        rw [hl.nodeLeaf]
        cases hnl : c.nodeLeaf with
        | none => exact .pure hs
        | some l => exact .pure (hs.consNode (hc l (.inl hnl)))
    | some a =>
      have ha := hn a rfl
      refine hw.rd ha fun c c' hl hc => ?_
      simp only [hl.isLeaf, hl.lbCmp, hl.getLowerBoundCh, hl.numChildren, hl.getKeyAtIdx, hl.getChild]
      refine Side.bind (Side.refl _) fun pc _ hq => ?_
      obtain ⟨rfl, -⟩ := hq
      refine .ite (fun _ => hw.lbPushBoth pre ha hp hs) fun _ => ?_
      refine .ite (fun _ => hw.lbPushParent pre hp hs) fun _ => ?_
      refine Side.bind (Side.of_eq (hw.nodeLeafKey ha)) fun lk _ hq => ?_
      obtain ⟨rfl, -⟩ := hq
      refine .ite (fun _ => hw.lbPushBoth pre ha hp hs) fun _ => ?_
      refine Side.bind (Side.of_eq (hw.lbSkip ha hl pre seen d)) fun q _ hq => ?_
      obtain ⟨rfl, -⟩ := hq
      obtain ⟨stop, seen, d⟩ := q
      simp only
      refine .ite (fun _ => .pure hs) fun _ => ?_
      refine .ite (fun _ => hw.lbPushBoth pre ha hp hs) fun _ => ?_
      refine Side.bind (Side.refl _) fun b _ hq => ?_
      obtain ⟨rfl, -⟩ := hq
      refine Side.bind (Side.refl _) fun idx0 _ hq => ?_
      obtain ⟨rfl, -⟩ := hq
      refine .ite (fun _ => .pure hs) fun _ => ?_
      refine .ite (fun _ => hw.lbNoChild pre ha hl hc lk hp hs) fun _ => ?_
      refine Side.bind (Side.of_eq (hw.parentLeafKey hp)) fun pl _ hq => ?_
      obtain ⟨rfl, -⟩ := hq
      refine .ite (fun _ => hw.lbTakeAll pre ha hl hc lk hp hs) fun _ => ?_
      refine Side.bind (hw.lbPushChildren pre hl hc _ _ _ hs) fun st1 st2 hs2 => ?_
      refine Side.bind (Side.refl _) fun kb _ hq => ?_
      obtain ⟨rfl, -⟩ := hq
      refine Side.bind (Side.refl _) fun child _ hq => ?_
      obtain ⟨rfl, hq⟩ := hq
      obtain ⟨h1, h2⟩ := hw.child hc hq
      have := ih child (some a) (d + 1) (seen || (kb != b)) h2 (fun b hb => by cases hb; exact ha) hs2
      rw [← h1] at this
      exact this

theorem Swap.lbNext (f : Nat) {st' st : List (Option Addr)} (hs : StackSwap r r' Y st' st) :
    Side (fun p q => p.1 = q.1 ∧ StackSwap r r' Y p.2 q.2) (lbNext h f st') (lbNext h f st) := by
  induction f generalizing st' st with
  | zero => exact .error _
  | succ f ih =>
    obtain ⟨hs1, hs2⟩ := hs
    subst hs1
    rw [lbNext.eq_def, lbNext.eq_def]
    simp only
    match st, hs2 with
    | [], _ => exact .ok ⟨rfl, .nil⟩
    | none :: rest, hs2 => exact .ok ⟨rfl, rfl, fun a ha => hs2 a (by simp [ha])⟩
    | some a :: rest, hs2 =>
      have hrest : StackSwap r r' Y (rest.map (Option.map (swapAt r r'))) rest := ⟨rfl, fun a ha => hs2 a (by simp [ha])⟩
      refine hw.rd (hs2 a (by simp)) fun c c' hl hc => ?_
      have key : ∀ n : Inner, (∀ b, (Cell.inner n : Cell V).Pts b → Y b ∧ b ≠ r) → Side (fun p q => p.1 = q.1 ∧ StackSwap r r' Y p.2 q.2)
          (match n.leaf with
          | none => Art.lbNext h f (n.iterChildren ++ rest.map (Option.map (swapAt r r')))
          | some l => do
            let lc ← rdLeaf h l
            pure (some (getKey lc.key, lc.value), n.iterChildren ++ rest.map (Option.map (swapAt r r'))))
          (match n.leaf with
          | none => Art.lbNext h f (n.iterChildren ++ rest)
          | some l => do
            let lc ← rdLeaf h l
            pure (some (getKey lc.key, lc.value), n.iterChildren ++ rest)) := fun n hc => by
        have happ := hrest.append (l := n.iterChildren) fun a ha => hc a (.inr (mem_iterChildren ha))
        cases n.leaf with
        | none => exact ih happ
        | some l =>
          refine Side.bind (Side.refl _) fun lc _ hq => ?_
          obtain ⟨rfl, -⟩ := hq
          exact .pure ⟨rfl, happ⟩
      cases hl with
      | same =>
        cases c with
        | leaf l => exact .pure ⟨rfl, hrest⟩
        | inner n => exact key n hc
      | copy n p ch hn hp => subst hn; exact key n hc

theorem Swap.lbCollect (f : Nat) {st' st : List (Option Addr)} (hs : StackSwap r r' Y st' st) :
    lbCollect h f st' = lbCollect h f st := by
  induction f generalizing st' st with
  | zero => rfl
  | succ f ih =>
    unfold Art.lbCollect
    refine Side.eq (Side.bind (hw.lbNext (f + 1) hs) fun p q hq => ?_)
    obtain ⟨p1, p2⟩ := p
    obtain ⟨q1, q2⟩ := q
    obtain ⟨hq1, hq2⟩ := hq
    have hq1 : p1 = q1 := hq1
    subst hq1
    cases p1 with
    | none => exact .pure rfl
    | some kv =>
      simp only
      rw [ih hq2]
      refine Side.bind (Side.refl _) fun _ _ hq => ?_
      obtain ⟨rfl, -⟩ := hq
      exact .pure rfl

theorem Swap.iterLowerBound {k : Key} {f : Nat} :
    (do let st ← seekLowerBound h r' k; Art.lbCollect h f st) = (do let st ← seekLowerBound h r k; Art.lbCollect h f st) := by
  refine Side.eq (Side.bind (Q := StackSwap r r' Y) ?_ fun st' st hs => ?_)
  · unfold seekLowerBound
    have h0 : StackSwap r r' Y [some r'] [some r] := by
      have := (StackSwap.nil (r := r) (r' := r') (Y := Y)).cons hw.root
      rw [swapAt_self] at this
      exact this
    refine .ite (fun _ => .ok h0) fun _ => ?_
    have := hw.lbLoop (getTreeKey k) ((getTreeKey k).length + 1) (some r) none 0 false (fun a ha => by cases ha; exact hw.root)
      (fun a ha => by cases ha) .nil
    simp only [Option.map_some, swapAt_self] at this
    exact this
  · rw [hw.lbCollect f hs]
    cases Art.lbCollect h f st with
    | error e => exact .error _
    | ok a => exact .ok rfl

/-! ### The reverse iterator -/

theorem Swap.contains {ex : List Addr} (he : ∀ a ∈ ex, Y a) {a : Addr} (ha : Y a) :
    (ex.map (swapAt r r')).contains (swapAt r r' a) = ex.contains a := by
  have hinj : ∀ b, Y b → swapAt r r' b = swapAt r r' a → b = a := fun b hb hab => by
    by_cases h1 : b = r
    · by_cases h2 : a = r
      · rw [h1, h2]
      · rw [h1, swapAt_self, swapAt_ne h2] at hab
        exact absurd (hab ▸ ha) hw.fresh
    · by_cases h2 : a = r
      · rw [h2, swapAt_self, swapAt_ne h1] at hab
        exact absurd (hab ▸ hb) hw.fresh
      · rw [swapAt_ne h1, swapAt_ne h2] at hab
        exact hab
  rw [Bool.eq_iff_iff]
  simp only [List.contains_iff_mem, List.mem_map]
  exact ⟨fun ⟨b, hb, hab⟩ => hinj b (he b hb) hab ▸ hb, fun h => ⟨a, h, rfl⟩⟩

theorem Swap.revLeafPush (path : Key) {l : Option Addr} (hl : ∀ a, l = some a → Y a ∧ a ≠ r) {lf : Option (Addr × LeafC V)}
    (hlf : leafOf h l = .ok lf) {st' st : List (Option Addr)} (hs : StackSwap r r' Y st' st) :
    StackSwap r r' Y (revLeafPush path lf st') (revLeafPush path lf st) := by
  unfold leafOf at hlf
  cases l with
  | none => cases hlf; exact hs
  | some l =>
    obtain ⟨lc, -, h2⟩ := R.bind_ok hlf
    cases h2
    exact hs.iteNode (hl l rfl)

theorem Swap.revNext (path : Key) {ex : List Addr} (he : ∀ a ∈ ex, Y a) (f : Nat) {st' st : List (Option Addr)}
    (hs : StackSwap r r' Y st' st) :
    Side (fun p q => p.1 = q.1 ∧ StackSwap r r' Y p.2 q.2) (revNext h path (ex.map (swapAt r r')) f st') (revNext h path ex f st) := by
  induction f generalizing st' st with
  | zero => exact .error _
  | succ f ih =>
    obtain ⟨hs1, hs2⟩ := hs
    subst hs1
    rw [revNext.eq_def, revNext.eq_def]
    simp only
    match st, hs2 with
    | [], _ => exact .ok ⟨rfl, .nil⟩
    | none :: rest, hs2 => exact .ok ⟨rfl, rfl, fun a ha => hs2 a (by simp [ha])⟩
    | some a :: rest, hs2 =>
      have hrest : StackSwap r r' Y (rest.map (Option.map (swapAt r r'))) rest := ⟨rfl, fun a ha => hs2 a (by simp [ha])⟩
      have ha := hs2 a (by simp)
      refine hw.rd ha fun c c' hl hc => ?_
      rw [hw.contains he ha]
      have key : ∀ n : Inner, (∀ b, (Cell.inner n : Cell V).Pts b → Y b ∧ b ≠ r) → Side (fun p q => p.1 = q.1 ∧ StackSwap r r' Y p.2 q.2)
          (do
            let lf ← leafOf h n.leaf
            if ex.contains a then Art.revNext h path (ex.map (swapAt r r')) f (Art.revLeafPush path lf (rest.map (Option.map (swapAt r r'))))
            else
              match lf with
              | some (_, lc) =>
                if hasPrefix (getKey lc.key) path then
                  pure (some (getKey lc.key, lc.value), n.revChildren ++ Art.revLeafPush path lf (rest.map (Option.map (swapAt r r'))))
                else Art.revNext h path (ex.map (swapAt r r')) f (n.revChildren ++ Art.revLeafPush path lf (rest.map (Option.map (swapAt r r'))))
              | none => Art.revNext h path (ex.map (swapAt r r')) f (n.revChildren ++ Art.revLeafPush path lf (rest.map (Option.map (swapAt r r')))))
          (do
            let lf ← leafOf h n.leaf
            if ex.contains a then Art.revNext h path ex f (Art.revLeafPush path lf rest)
            else
              match lf with
              | some (_, lc) =>
                if hasPrefix (getKey lc.key) path then
                  pure (some (getKey lc.key, lc.value), n.revChildren ++ Art.revLeafPush path lf rest)
                else Art.revNext h path ex f (n.revChildren ++ Art.revLeafPush path lf rest)
              | none => Art.revNext h path ex f (n.revChildren ++ Art.revLeafPush path lf rest)) := fun n hc => by
        refine Side.bind (Side.refl _) fun lf _ hq => ?_
        obtain ⟨rfl, hq⟩ := hq
        have h1 := hw.revLeafPush path (fun b hb => hc b (.inl hb)) hq hrest
        have h2 := h1.append (l := n.revChildren) fun b hb => hc b (.inr (mem_iterChildren (List.mem_reverse.1 hb)))
        refine .ite (fun _ => ih h1) fun _ => ?_
        cases lf with
        | none => exact ih h2
        | some p => exact .ite (fun _ => .pure ⟨rfl, h2⟩) fun _ => ih h2
      cases hl with
      | same =>
        cases c with
        | leaf l => exact .ite (fun _ => .pure ⟨rfl, hrest⟩) fun _ => ih hrest
        | inner n => exact key n hc
      | copy n p ch hn hp => subst hn; exact key n hc

theorem Swap.revCollect (path : Key) {ex : List Addr} (he : ∀ a ∈ ex, Y a) (x x' : Option Addr) (f : Nat)
    {st' st : List (Option Addr)} (hs : StackSwap r r' Y st' st) :
    revCollect h f { path := path, node := x', stack := some st', expanded := ex.map (swapAt r r') } =
      revCollect h f { path := path, node := x, stack := some st, expanded := ex } := by
  induction f generalizing st' st with
  | zero => rfl
  | succ f ih =>
    unfold Art.revCollect revPrevious
    simp only
    refine Side.eq (Side.bind (Q := fun p q : Option (Key × V) × RevIter => p.1 = q.1 ∧ ∃ s' s, StackSwap r r' Y s' s ∧
      p.2 = { path := path, node := x', stack := some s', expanded := ex.map (swapAt r r') } ∧
      q.2 = { path := path, node := x, stack := some s, expanded := ex })
      (Side.bind (hw.revNext path he (f + 1) hs) fun p q hq => .pure ⟨hq.1, _, _, hq.2, rfl, rfl⟩) fun p q hq => ?_)
    obtain ⟨p1, p2⟩ := p
    obtain ⟨q1, q2⟩ := q
    obtain ⟨hq1, s', s, hq2, hq3, hq4⟩ := hq
    have hq1 : p1 = q1 := hq1
    have hq3 : p2 = _ := hq3
    have hq4 : q2 = _ := hq4
    subst hq1 hq3 hq4
    cases p1 with
    | none => exact .pure rfl
    | some kv =>
      simp only
      rw [ih hq2]
      refine Side.bind (Side.refl _) fun _ _ hq => ?_
      obtain ⟨rfl, -⟩ := hq
      exact .pure rfl

theorem Swap.revSkip {a : Addr} (ha : Y a) {c c' : Cell V} (hl : c.Alike c') (pre : Key) (seen : Bool) (d : Nat) :
    revSkip h (swapAt r r' a) c' pre seen d = revSkip h a c pre seen d := by
  unfold Art.revSkip
  rw [hl.partialLen, hw.prefixMismatch ha]

theorem Swap.revPushLeaf {c : Cell V} (hc : ∀ b, c.Pts b → Y b ∧ b ≠ r) {st' st : List (Option Addr)} (hs : StackSwap r r' Y st' st) :
    StackSwap r r' Y (revPushLeaf c st') (revPushLeaf c st) := by
  unfold Art.revPushLeaf
  cases hn : c.nodeLeaf with
  | none => exact hs
  | some l => exact hs.consNode (hc l (.inl hn))

theorem Swap.revLoop (key pre extra : Key) (f : Nat) (node : Option Addr) (d : Nat) (seen : Bool) {st' st : List (Option Addr)}
    {ex : List Addr} (hn : ∀ a, node = some a → Y a) (hs : StackSwap r r' Y st' st) (he : ∀ a ∈ ex, Y a) :
    Side (fun p q => StackSwap r r' Y p.1 q.1 ∧ p.2 = q.2.map (swapAt r r') ∧ ∀ a ∈ q.2, Y a)
      (revLoop h key pre extra f (node.map (swapAt r r')) d seen st' (ex.map (swapAt r r'))) (revLoop h key pre extra f node d seen st ex) := by
  induction f generalizing node d seen st' st ex with
  | zero => rw [revLoop.eq_def, revLoop.eq_def]; exact .error _
  | succ f ih =>
    rw [revLoop.eq_def, revLoop.eq_def]
    simp only
    cases node with
    | none => exact .ok ⟨hs, rfl, he⟩
    | some a =>
      have ha := hn a rfl
      refine hw.rd ha fun c c' hl hc => ?_
      simp only [hl.revCmp, hl.revPushLeaf, hl.revLeafDone, hl.revPick, hl.numChildren, hl.getChild, hl.nodeLeaf]
      refine Side.bind (Side.refl _) fun pc _ hq => ?_
      obtain ⟨rfl, -⟩ := hq
      refine .ite (fun _ => .pure ⟨hs.cons ha, rfl, he⟩) fun _ => ?_
      refine .ite (fun _ => .pure ⟨hw.revPushLeaf hc hs, rfl, he⟩) fun _ => ?_
      refine Side.bind (Side.of_eq (hw.nodeLeafKey ha)) fun lk _ hq => ?_
      obtain ⟨rfl, -⟩ := hq
      refine Side.bind (Side.refl _) fun done _ hq => ?_
      obtain ⟨rfl, -⟩ := hq
      refine .ite (fun _ => .pure ⟨hs.cons ha, rfl, he⟩) fun _ => ?_
      refine Side.bind (Side.of_eq (hw.revSkip ha hl pre seen d)) fun q _ hq => ?_
      obtain ⟨rfl, -⟩ := hq
      obtain ⟨stop, seen, d⟩ := q
      simp only
      refine .ite (fun _ => .pure ⟨hw.revPushLeaf hc hs, rfl, he⟩) fun _ => ?_
      refine .ite (fun _ => .pure ⟨hs.cons ha, rfl, he⟩) fun _ => ?_
      refine Side.bind (Side.refl _) fun q _ hq => ?_
      obtain ⟨rfl, -⟩ := hq
      obtain ⟨idx, seen⟩ := q
      simp only
      refine Side.bind (Side.refl _) fun chs _ hq => ?_
      obtain ⟨rfl, hchs⟩ := hq
      have hs2 := (hs.ite (p := c.nodeLeaf.isSome = true) ha).append
        (l := (chs.filterMap fun (o : Option Addr) => o.map some).reverse) fun b hb => by
          obtain ⟨o, ho, hob⟩ := List.mem_filterMap.1 (List.mem_reverse.1 hb)
          cases o with
          | none => cases hob
          | some x => cases hob; exact hc _ (mem_mapM_getChild c _ _ hchs _ ho)
      refine .ite (fun _ => .pure ⟨hs2, rfl, he⟩) fun _ => ?_
      refine Side.bind (Side.refl _) fun child _ hq => ?_
      obtain ⟨rfl, hq⟩ := hq
      obtain ⟨h1, h2⟩ := hw.child hc hq
      have := ih child (d + 1) seen (ex := a :: ex) h2 hs2 (fun b hb => by
        rcases List.mem_cons.1 hb with rfl | hb
        · exact ha
        · exact he b hb)
      rw [← h1] at this
      exact this

theorem Swap.iterReverseLowerBound {k extra : Key} {f : Nat} :
    (do let it ← seekReverseLowerBound h (mkRevIter r') k extra; Art.revCollect h f it) =
      (do let it ← seekReverseLowerBound h (mkRevIter r) k extra; Art.revCollect h f it) := by
  refine Side.eq (Side.bind (Q := fun p q : RevIter => ∃ s' s ex, StackSwap r r' Y s' s ∧ (∀ a ∈ ex, Y a) ∧
      p = { path := getTreeKey k, node := none, stack := some s', expanded := ex.map (swapAt r r') } ∧
      q = { path := getTreeKey k, node := none, stack := some s, expanded := ex }) ?_ fun p q hq => ?_)
  · unfold seekReverseLowerBound
    have := hw.revLoop k (getTreeKey k) extra ((getTreeKey k).length + 1) (some r) 0 false (ex := [])
      (fun a ha => by cases ha; exact hw.root) .nil (fun a ha => by cases ha)
    simp only [Option.map_some, swapAt_self, List.map_nil] at this
    refine Side.bind this fun p q hq => ?_
    obtain ⟨p1, p2⟩ := p
    obtain ⟨q1, q2⟩ := q
    obtain ⟨h1, h2, h3⟩ := hq
    have h2 : p2 = _ := h2
    subst h2
    exact .pure ⟨p1, q1, q2, h1, h3, rfl, rfl⟩
  · obtain ⟨s', s, ex, h1, h2, rfl, rfl⟩ := hq
    rw [hw.revCollect (getTreeKey k) h2 none none f h1]
    cases Art.revCollect h f _ with
    | error e => exact .error _
    | ok a => exact .ok rfl

theorem Swap.iterReversePrefix {k : Key} {f : Nat} :
    (do let it ← revSeekPrefix h (mkRevIter r') k; Art.revCollect h f it) =
      (do let it ← revSeekPrefix h (mkRevIter r) k; Art.revCollect h f it) := by
  unfold revSeekPrefix mkRevIter
  simp only
  rcases seekLoop_twin hw.twin k (k.length + 1) 0 with h1 | ⟨h1, h2⟩
  · rw [h1]
  · rw [h1, h2]
    have h0 : StackSwap r r' Y [some r'] [some r] := by
      have := (StackSwap.nil (r := r) (r' := r') (Y := Y)).cons hw.root
      rw [swapAt_self] at this
      exact this
    exact hw.revCollect k (ex := []) (fun a ha => by cases ha) (some r) (some r') f h0
end

/-- A copied root of a heap without cycles. -/
theorem Swap.of_ranked {h : Heap V} {rk : Rank} (hj : Ranked rk h) {r : Addr} {n : Inner} {k : Option ChanId}
    (hn : h[r]? = some (.inner n)) (hp : n.part.length = 10 ∨ n.partialLen = 0) :
    Swap (h.set r ((Cell.inner n).setCh k) ++ [(Cell.inner n).copy k]) r h.length { n with ch := k }
      (fun a => a = r ∨ a < h.length ∧ rk a < rk r) := by
  have hlt := (List.getElem?_eq_some_iff.1 hn).1
  refine ⟨Twin.of_clone (ch := k) ?_ ?_ hp, .inl rfl, fun hy => ?_, fun a ha => ?_⟩
  · rw [List.getElem?_append_left (by simpa using hlt), List.getElem?_set_self hlt]; rfl
  · rw [List.getElem?_append_right (by simp)]; simp; rfl
  · rcases hy with hy | hy <;> omega
  · have hal : a < h.length := by rcases ha with rfl | ha; exact hlt; exact ha.1
    have hrk : rk a ≤ rk r := by rcases ha with rfl | ha; exact Nat.le_refl _; exact Nat.le_of_lt ha.2
    have hc0 : ∃ c : Cell V, h[a]? = some c := ⟨_, List.getElem?_eq_getElem hal⟩
    obtain ⟨c, hc⟩ := hc0
    have hpts : ∀ b, c.Pts b → (b = r ∨ b < h.length ∧ rk b < rk r) ∧ b ≠ r := fun b hb => by
      obtain ⟨h1, h2⟩ := hj a c b hc hb
      exact ⟨.inr ⟨h1, by omega⟩, fun he => by subst he; omega⟩
    rw [List.getElem?_append_left (by simpa using hal)]
    by_cases har : a = r
    · subst har
      rw [hn] at hc; cases hc
      exact ⟨_, List.getElem?_set_self hlt, fun b hb => hpts b hb⟩
    · exact ⟨c, by rw [List.getElem?_set_ne (Ne.symm har)]; exact hc, hpts⟩
end Art
