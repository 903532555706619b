import Verif.Proofs.Congr
/-
Reads depend only on the nodes that can be reached: lookups, walks and iterators.
-/
set_option autoImplicit false
set_option linter.unusedVariables false
set_option linter.unusedSimpArgs false
set_option linter.unusedSectionVars false
namespace Art
variable {V : Type} {h h' : Heap V} {S : Addr → Prop}

theorem Cell.getChild_pts {c : Cell V} {i : Int} {b : Addr} (hb : c.getChild i = .ok (some b)) : c.Pts b := by
  cases c with
  | leaf l => cases hb
  | inner n => exact .inr (Inner.mem_getChild hb)

theorem prefixMismatch_congr (hs : Same h h' S) (hl : h.length ≤ h'.length) {a : Addr} (ha : S a) (key : Key) (kl d : Nat) :
    prefixMismatch h' a key kl d = prefixMismatch h a key kl d := by
  obtain ⟨c, k, h1, h2, -, h3⟩ := hs.rd ha
  unfold prefixMismatch
  have e1 : (c.setCh k).partialLen = c.partialLen := by cases c <;> rfl
  have e2 : (c.setCh k).part = c.part := by cases c <;> rfl
  simp only [h1, h2, Except.bind_ok, e1, e2]
  obtain ⟨m1, m2⟩ := minimum_congr hs hl (some a) fun b hb => by cases hb; exact ha
  rw [m1]
  cases scanEq c.part (key.drop d) (min (min maxPrefixLen c.partialLen) (kl - d)) 0 with
  | error e => rfl
  | ok p =>
    simp only [Except.bind_ok]
    split
    · rfl
    · split
      · cases hm : minimum h (some a) with
        | error e => rfl
        | ok o =>
          cases o with
          | none => rfl
          | some l =>
            simp only [Except.bind_ok]
            rcases hs.rdLeaf (m2 l hm) with ⟨lc, k', e3, e4⟩ | ⟨e3, e4⟩
            · simp only [e3, e4, Except.bind_ok]
            · simp only [e3, e4, Except.bind_error]
      · rfl

theorem Cell.nodeLeaf_setCh (c : Cell V) (k : Option ChanId) : (c.setCh k).nodeLeaf = c.nodeLeaf := by cases c <;> rfl
theorem Cell.children_setCh (c : Cell V) (k : Option ChanId) : (c.setCh k).children = c.children := by cases c <;> rfl
theorem Cell.partialLen_setCh (c : Cell V) (k : Option ChanId) : (c.setCh k).partialLen = c.partialLen := by cases c <;> rfl
theorem Cell.part_setCh (c : Cell V) (k : Option ChanId) : (c.setCh k).part = c.part := by cases c <;> rfl
theorem Cell.isLeaf_setCh (c : Cell V) (k : Option ChanId) : (c.setCh k).isLeaf = c.isLeaf := by cases c <;> rfl
theorem Cell.findChild_setCh (c : Cell V) (k : Option ChanId) (b : Byte) : (c.setCh k).findChild b = c.findChild b := by cases c <;> rfl
theorem Cell.getChild_setCh (c : Cell V) (k : Option ChanId) (i : Int) : (c.setCh k).getChild i = c.getChild i := by cases c <;> rfl
theorem Cell.getKeyAtIdx_setCh (c : Cell V) (k : Option ChanId) (i : Nat) : (c.setCh k).getKeyAtIdx i = c.getKeyAtIdx i := by cases c <;> rfl
theorem lowerBound48_setCh (n : Inner) (k : Option ChanId) (f i : Nat) :
    Inner.lowerBound48 { n with ch := k } f i = n.lowerBound48 f i := by
  induction f generalizing i with
  | zero => rfl
  | succ f ih =>
    unfold Inner.lowerBound48
    split
    · have e1 : ∀ i, Inner.getKeyAtIdx { n with ch := k } i = n.getKeyAtIdx i := fun _ => rfl
      have e2 : ∀ i, Inner.getChild { n with ch := k } i = n.getChild i := fun _ => rfl
      simp only [e1, e2, ih]
    · rfl
theorem lowerBound256_setCh (n : Inner) (k : Option ChanId) (f i : Nat) :
    Inner.lowerBound256 { n with ch := k } f i = n.lowerBound256 f i := by
  induction f generalizing i with
  | zero => rfl
  | succ f ih =>
    unfold Inner.lowerBound256
    split
    · have e2 : ∀ i, Inner.getChild { n with ch := k } i = n.getChild i := fun _ => rfl
      simp only [e2, ih]
    · rfl
theorem Cell.getLowerBoundCh_setCh (c : Cell V) (k : Option ChanId) (b : Byte) :
    (c.setCh k).getLowerBoundCh b = c.getLowerBoundCh b := by
  cases c with
  | leaf l => rfl
  | inner n =>
    show Inner.getLowerBoundCh { n with ch := k } b = n.getLowerBoundCh b
    unfold Inner.getLowerBoundCh
    simp only [lowerBound48_setCh, lowerBound256_setCh]
theorem Cell.numChildren_setCh (c : Cell V) (k : Option ChanId) : (c.setCh k).numChildren = c.numChildren := by cases c <;> rfl
theorem prefixBails_setCh (c : Cell V) (k : Option ChanId) (key : Key) (d : Nat) :
    prefixBails (c.setCh k) key d = prefixBails c key d := by cases c <;> rfl

/-! ### Lookup -/

theorem searchChildren_congr (hs : Same h h' S) (key : Key) (l : List (Option Addr)) (hl : ∀ b, some b ∈ l → S b) :
    searchChildren h' key l = searchChildren h key l := by
  induction l with
  | nil => rfl
  | cons x rest ih =>
    have ih := ih fun b hb => hl b (by simp [hb])
    cases x with
    | none => exact ih
    | some ch =>
      obtain ⟨c, k, h1, h2, -, h3⟩ := hs.rd (hl ch (by simp))
      unfold searchChildren
      simp only [h1, h2, Except.bind_ok, Cell.nodeLeaf_setCh]
      cases hn : c.nodeLeaf with
      | none => exact ih
      | some l =>
        simp only
        rcases hs.rdLeaf (h3 l (.inl hn)) with ⟨lc, k', e3, e4⟩ | ⟨e3, e4⟩
        · simp only [e3, e4, Except.bind_ok, ih]
        · simp only [e3, e4, Except.bind_error]

theorem searchOwn_congr (hs : Same h h' S) (key : Key) (c : Cell V) (k : Option ChanId) (hc : ∀ b, c.Pts b → S b) :
    searchOwn h' (c.setCh k) key = searchOwn h c key := by
  unfold searchOwn
  rw [Cell.nodeLeaf_setCh]
  cases hn : c.nodeLeaf with
  | none => rfl
  | some l =>
    simp only
    rcases hs.rdLeaf (hc l (.inl hn)) with ⟨lc, k', e3, e4⟩ | ⟨e3, e4⟩
    · simp only [e3, e4, Except.bind_ok]
    · simp only [e3, e4, Except.bind_error]

theorem searchStop_congr (hs : Same h h' S) (key : Key) (a : Addr) (c : Cell V) (k : Option ChanId) (hc : ∀ b, c.Pts b → S b) :
    searchStop h' a (c.setCh k) key = searchStop h a c key := by
  unfold searchStop
  rw [searchOwn_congr hs key c k hc, Cell.children_setCh, searchChildren_congr hs key _ fun b hb => hc b (.inr hb)]

theorem searchLeaf_congr (hs : Same h h' S) (key : Key) (a : Addr) (c : Cell V) (k : Option ChanId) (hc : ∀ b, c.Pts b → S b) :
    searchLeaf h' a (c.setCh k) key = searchLeaf h a c key := by
  unfold searchLeaf
  rw [Cell.isLeaf_setCh]
  cases c with
  | leaf l => rfl
  | inner n =>
    split
    · simp only [Cell.setCh]
      cases hn : n.leaf with
      | none => rfl
      | some l =>
        simp only
        rcases hs.rdLeaf (hc l (.inl hn)) with ⟨lc, k', e3, e4⟩ | ⟨e3, e4⟩
        · simp only [e3, e4, Except.bind_ok]
        · simp only [e3, e4, Except.bind_error]
    · rfl

theorem searchLoopAt_congr (hs : Same h h' S) (key : Key) (n : Nat) (a : Addr) (d : Nat) (ha : S a) :
    searchLoopAt h' key n a d = searchLoopAt h key n a d := by
  induction n generalizing a d with
  | zero => rfl
  | succ n ih =>
    obtain ⟨c, k, h1, h2, -, h3⟩ := hs.rd ha
    unfold searchLoopAt
    simp only [h1, h2, Except.bind_ok, searchLeaf_congr hs key a c k h3, prefixBails_setCh,
      searchStop_congr hs key a c k h3, Cell.partialLen_setCh, Cell.findChild_setCh]
    cases searchLeaf h a c key with
    | error e => rfl
    | ok o =>
      cases o with
      | some hit => rfl
      | none =>
        simp only [Except.bind_ok]
        cases prefixBails c key d with
        | error e => rfl
        | ok bail =>
          simp only [Except.bind_ok]
          split
          · rfl
          · split
            · rfl
            · cases byteAt key (d + c.partialLen) with
              | error e => rfl
              | ok b =>
                simp only [Except.bind_ok]
                cases hf : c.findChild b with
                | error e => rfl
                | ok p =>
                  obtain ⟨o, i⟩ := p
                  simp only [Except.bind_ok]
                  cases o with
                  | none => rfl
                  | some child => exact ih child _ (h3 child (.inr (Cell.mem_findChild hf)))

theorem search_congr (hs : Same h h' S) {root : Addr} (hr : S root) (key : Key) : search h' root key = search h root key :=
  searchLoopAt_congr hs _ _ _ _ hr

theorem treeGet_congr (hs : Same h h' S) {t : Tree} (hr : S t.root) (key : Key) : treeGet h' t key = treeGet h t key := by
  unfold treeGet; rw [search_congr hs hr]

/-! ### LongestPrefix -/

theorem lpChildren_congr (hs : Same h h' S) (key : Key) (l : List (Option Addr)) (last : Option Addr)
    (hl : ∀ b, some b ∈ l → S b) (h0 : ∀ b, last = some b → S b) :
    lpChildren h' key l last = lpChildren h key l last ∧ ∀ b, lpChildren h key l last = .ok (some b) → S b := by
  induction l generalizing last with
  | nil => exact ⟨rfl, fun b hb => h0 b (Except.ok.inj hb)⟩
  | cons x rest ih =>
    have ih := fun last => ih last fun b hb => hl b (by simp [hb])
    cases x with
    | none => exact ih last h0
    | some ch =>
      obtain ⟨c, k, h1, h2, -, h3⟩ := hs.rd (hl ch (by simp))
      unfold lpChildren
      simp only [h1, h2, Except.bind_ok, Cell.nodeLeaf_setCh]
      cases hn : c.nodeLeaf with
      | none => exact ih last h0
      | some l =>
        simp only
        rcases hs.rdLeaf (h3 l (.inl hn)) with ⟨lc, k', e3, e4⟩ | ⟨e3, e4⟩
        · simp only [e3, e4, Except.bind_ok]
          refine ih _ fun b hb => ?_
          split at hb
          · cases hb; exact h3 _ (.inl hn)
          · exact h0 b hb
        · simp only [e3, e4, Except.bind_error]
          exact ⟨trivial, fun b hb => by cases hb⟩

theorem lpOwn_congr (hs : Same h h' S) (key : Key) (c : Cell V) (k : Option ChanId) (last : Option Addr)
    (hc : ∀ b, c.Pts b → S b) (h0 : ∀ b, last = some b → S b) :
    lpOwn h' key (c.setCh k) last = lpOwn h key c last ∧ ∀ b, lpOwn h key c last = .ok (some b) → S b := by
  unfold lpOwn
  rw [Cell.nodeLeaf_setCh]
  cases hn : c.nodeLeaf with
  | none => exact ⟨rfl, fun b hb => h0 b (Except.ok.inj hb)⟩
  | some l =>
    simp only
    rcases hs.rdLeaf (hc l (.inl hn)) with ⟨lc, k', e3, e4⟩ | ⟨e3, e4⟩
    · simp only [e3, e4, Except.bind_ok]
      refine ⟨trivial, fun b hb => ?_⟩
      split at hb
      · cases hb; exact hc _ (.inl hn)
      · exact h0 b (Except.ok.inj hb)
    · simp only [e3, e4, Except.bind_error]
      exact ⟨trivial, fun b hb => by cases hb⟩

theorem lpLoop_congr (hs : Same h h' S) (key : Key) (n : Nat) (a : Addr) (d : Nat) (last : Option Addr) (ha : S a)
    (h0 : ∀ b, last = some b → S b) :
    lpLoop h' key n a d last = lpLoop h key n a d last ∧ ∀ b, lpLoop h key n a d last = .ok (some b) → S b := by
  induction n generalizing a d last with
  | zero => exact ⟨rfl, fun b hb => by cases hb⟩
  | succ n ih =>
    obtain ⟨c, k, h1, h2, -, h3⟩ := hs.rd ha
    obtain ⟨o1, o2⟩ := lpOwn_congr hs key c k last h3 h0
    unfold lpLoop
    simp only [h1, h2, Except.bind_ok, prefixBails_setCh, Cell.partialLen_setCh, Cell.findChild_setCh, o1,
      Cell.children_setCh]
    cases prefixBails c key d with
    | error e => exact ⟨rfl, fun b hb => by cases hb⟩
    | ok bail =>
      simp only [Except.bind_ok]
      split
      · exact ⟨rfl, fun b hb => h0 b (Except.ok.inj hb)⟩
      · split
        · exact ⟨rfl, fun b hb => h0 b (Except.ok.inj hb)⟩
        · cases ho : lpOwn h key c last with
          | error e => exact ⟨rfl, fun b hb => by cases hb⟩
          | ok l1 =>
            have hl1 : ∀ b, l1 = some b → S b := fun b hb => o2 b (by rw [ho, hb])
            obtain ⟨c1, c2⟩ := lpChildren_congr hs key c.children l1 (fun b hb => h3 b (.inr hb)) hl1
            simp only [Except.bind_ok, c1]
            cases hch : lpChildren h key c.children l1 with
            | error e => exact ⟨rfl, fun b hb => by cases hb⟩
            | ok l2 =>
              have hl2 : ∀ b, l2 = some b → S b := fun b hb => c2 b (by rw [hch, hb])
              simp only [Except.bind_ok]
              cases byteAt key (d + c.partialLen) with
              | error e => exact ⟨rfl, fun b hb => by cases hb⟩
              | ok b =>
                simp only [Except.bind_ok]
                cases hf : c.findChild b with
                | error e => exact ⟨rfl, fun b hb => by cases hb⟩
                | ok p =>
                  obtain ⟨o, i⟩ := p
                  simp only [Except.bind_ok]
                  cases o with
                  | none => exact ⟨rfl, fun b hb => hl2 b (Except.ok.inj hb)⟩
                  | some child => exact ih child _ l2 (h3 child (.inr (Cell.mem_findChild hf))) hl2

theorem longestPrefix_congr (hs : Same h h' S) {t : Tree} (hr : S t.root) (k : Key) :
    longestPrefix h' t k = longestPrefix h t k := by
  obtain ⟨c, k', h1, h2, -, h3⟩ := hs.rd hr
  obtain ⟨l1, l2⟩ := lpLoop_congr hs (getTreeKey k) ((getTreeKey k).length + 1) t.root 0 c.nodeLeaf hr
    fun b hb => h3 b (.inl hb)
  unfold longestPrefix
  simp only [h1, h2, Except.bind_ok, Cell.nodeLeaf_setCh, l1]
  cases hl : lpLoop h (getTreeKey k) ((getTreeKey k).length + 1) t.root 0 c.nodeLeaf with
  | error e => rfl
  | ok o =>
    cases o with
    | none => rfl
    | some l =>
      simp only [Except.bind_ok]
      rcases hs.rdLeaf (l2 l hl) with ⟨lc, k', e3, e4⟩ | ⟨e3, e4⟩
      · simp only [e3, e4, Except.bind_ok]
      · simp only [e3, e4, Except.bind_error]

/-! ### Minimum, Maximum, Walk -/

theorem leafPair_congr (hs : Same h h' S) (o : Option Addr) (ho : ∀ b, o = some b → S b) : leafPair h' o = leafPair h o := by
  cases o with
  | none => rfl
  | some a =>
    unfold leafPair
    rcases hs.rdLeaf (ho a rfl) with ⟨lc, k', e3, e4⟩ | ⟨e3, e4⟩
    · simp only [e3, e4, Except.bind_ok]
    · simp only [e3, e4, Except.bind_error]

theorem treeMinimum_congr (hs : Same h h' S) (hl : h.length ≤ h'.length) {t : Tree} (hr : S t.root) :
    treeMinimum h' t = treeMinimum h t := by
  obtain ⟨m1, m2⟩ := minimum_congr hs hl (some t.root) fun b hb => by cases hb; exact hr
  unfold treeMinimum
  rw [m1]
  cases hm : minimum h (some t.root) with
  | error e => rfl
  | ok o => exact leafPair_congr hs o fun b hb => m2 b (by rw [hm, hb])

theorem treeMaximum_congr (hs : Same h h' S) (hl : h.length ≤ h'.length) {t : Tree} (hr : S t.root) :
    treeMaximum h' t = treeMaximum h t := by
  obtain ⟨m1, m2⟩ := maximum_congr hs hl (some t.root) fun b hb => by cases hb; exact hr
  unfold treeMaximum
  rw [m1]
  cases hm : maximum h (some t.root) with
  | error e => rfl
  | ok o => exact leafPair_congr hs o fun b hb => m2 b (by rw [hm, hb])

section walk
variable [Inhabited V]

theorem walkOwn_congr (hs : Same h h' S) (c : Cell V) (k : Option ChanId) (fn : Key → V → Bool) (hc : ∀ b, c.Pts b → S b) :
    walkOwn h' (c.setCh k) fn = walkOwn h c fn := by
  unfold walkOwn
  rw [Cell.isLeaf_setCh, Cell.nodeLeaf_setCh]
  have e : (c.setCh k).value = c.value := by cases c <;> rfl
  cases c.isLeaf with
  | false => rfl
  | true =>
    cases hn : c.nodeLeaf with
    | none => rfl
    | some l =>
      simp only [e]
      rcases hs.rdLeaf (hc l (.inl hn)) with ⟨lc, k', e3, e4⟩ | ⟨e3, e4⟩
      · simp only [e3, e4, Except.bind_ok]
      · simp only [e3, e4, Except.bind_error]

theorem walkChildren_congr (f g : Addr → R (List (Key × V) × Bool)) (l : List (Option Addr))
    (hl : ∀ b, some b ∈ l → f b = g b) : walkChildren f l = walkChildren g l := by
  induction l with
  | nil => rfl
  | cons x rest ih =>
    have ih := ih fun b hb => hl b (by simp [hb])
    cases x with
    | none => exact ih
    | some a =>
      unfold walkChildren
      rw [hl a (by simp), ih]

theorem recursiveWalk_congr (hs : Same h h' S) (fn : Key → V → Bool) (n : Nat) (a : Addr) (ha : S a) :
    recursiveWalk h' fn n a = recursiveWalk h fn n a := by
  induction n generalizing a with
  | zero => rfl
  | succ n ih =>
    obtain ⟨c, k, h1, h2, -, h3⟩ := hs.rd ha
    unfold recursiveWalk
    simp only [h1, h2, Except.bind_ok, walkOwn_congr hs c k fn h3, Cell.children_setCh]
    rw [walkChildren_congr (recursiveWalk h' fn n) (recursiveWalk h fn n) _ fun b hb => ih b (h3 b (.inr hb))]

theorem walkChildren_succ (f g : Addr → R (List (Key × V) × Bool)) (l : List (Option Addr))
    (hfg : ∀ b, some b ∈ l → f b ≠ .error .fuel → g b = f b) (hne : walkChildren f l ≠ .error .fuel) :
    walkChildren g l = walkChildren f l := by
  induction l with
  | nil => rfl
  | cons x rest ih =>
    have ih := ih fun b hb => hfg b (by simp [hb])
    cases x with
    | none => exact ih hne
    | some a =>
      unfold walkChildren at hne ⊢
      have h1 : f a ≠ .error .fuel := by intro h1; rw [h1] at hne; exact hne rfl
      rw [hfg a (by simp) h1]
      cases hf : f a with
      | error e => rfl
      | ok p =>
        obtain ⟨l1, stop⟩ := p
        simp only [hf, Except.bind_ok] at hne ⊢
        cases stop with
        | true => rfl
        | false =>
          simp only [Bool.false_eq_true, if_false] at hne ⊢
          rw [ih]
          intro h2; rw [h2] at hne; exact hne rfl

theorem recursiveWalk_succ (fn : Key → V → Bool) (n : Nat) (a : Addr) (hne : recursiveWalk h fn n a ≠ .error .fuel) :
    recursiveWalk h fn (n + 1) a = recursiveWalk h fn n a := by
  induction n generalizing a with
  | zero => exact absurd rfl hne
  | succ n ih =>
    rw [recursiveWalk]
    rw [recursiveWalk] at hne ⊢
    cases hr : rd h a with
    | error e => rfl
    | ok c =>
      simp only [hr, Except.bind_ok] at hne ⊢
      cases hw : walkOwn h c fn with
      | error e => rfl
      | ok p =>
        obtain ⟨l, stop⟩ := p
        simp only [hw, Except.bind_ok] at hne ⊢
        cases stop with
        | true => rfl
        | false =>
          simp only [Bool.false_eq_true, if_false] at hne ⊢
          rw [walkChildren_succ (recursiveWalk h fn n) (recursiveWalk h fn (n + 1)) _ fun b _ hb => ih b hb]
          intro h2; rw [h2] at hne; exact hne rfl

theorem treeWalk_congr (hs : Same h h' S) (hl : h.length ≤ h'.length) {t : Tree} (hr : S t.root) (fn : Key → V → Bool) :
    treeWalk h' t fn = treeWalk h t fn := by
  have : recursiveWalk h' fn (h'.length + 1) t.root = recursiveWalk h fn (h.length + 1) t.root := by
    rw [recursiveWalk_congr hs fn _ _ hr]
    refine stabilise (S := S) (fun n a => recursiveWalk h fn n a) (N := h.length) (fun a ha => ?_)
      (fun n a hne => recursiveWalk_succ fn n a hne) (fun n hst a ha => ?_) (by omega) (by omega) hr
    · obtain ⟨c, hc, -⟩ := hs.closed a ha
      exact (List.getElem?_eq_some_iff.1 hc).1
    · obtain ⟨c, k, h1, h2, -, h3⟩ := hs.rd ha
      rw [recursiveWalk, recursiveWalk]
      simp only [h1, Except.bind_ok]
      rw [walkChildren_congr (recursiveWalk h fn (n + 1)) (recursiveWalk h fn n) _ fun b hb => hst b (h3 b (.inr hb))]
  unfold treeWalk
  rw [this]
end walk

/-! ### Iterators -/

theorem seekStep_congr (hs : Same h h' S) (hl : h.length ≤ h'.length) {a : Addr} (ha : S a) (c : Cell V) (k : Option ChanId)
    (pre : Key) (d : Nat) : seekStep h' a (c.setCh k) pre d = seekStep h a c pre d := by
  unfold seekStep
  rw [Cell.isLeaf_setCh, Cell.partialLen_setCh, prefixMismatch_congr hs hl ha]

theorem seekLoop_congr (hs : Same h h' S) (hl : h.length ≤ h'.length) (pre : Key) (n : Nat) (a : Addr) (d : Nat) (ha : S a) :
    seekLoop h' pre n a d = seekLoop h pre n a d ∧ ∀ b, seekLoop h pre n a d = .ok b → S b := by
  induction n generalizing a d with
  | zero => exact ⟨rfl, fun b hb => by cases hb⟩
  | succ n ih =>
    obtain ⟨c, k, h1, h2, -, h3⟩ := hs.rd ha
    unfold seekLoop
    simp only [h1, h2, Except.bind_ok, seekStep_congr hs hl ha, Cell.findChild_setCh]
    cases seekStep h a c pre d with
    | error e => exact ⟨rfl, fun b hb => by cases hb⟩
    | ok p =>
      obtain ⟨stop, d'⟩ := p
      simp only [Except.bind_ok]
      split
      · exact ⟨rfl, fun b hb => by cases hb; exact ha⟩
      · split
        · exact ⟨rfl, fun b hb => by cases hb; exact ha⟩
        · cases byteAt pre d' with
          | error e => exact ⟨rfl, fun b hb => by cases hb⟩
          | ok b =>
            simp only [Except.bind_ok]
            cases hf : c.findChild b with
            | error e => exact ⟨rfl, fun b hb => by cases hb⟩
            | ok p =>
              obtain ⟨o, i⟩ := p
              simp only [Except.bind_ok]
              cases o with
              | none => exact ⟨rfl, fun b hb => by cases hb; exact ha⟩
              | some child => exact ih child _ (h3 child (.inr (Cell.mem_findChild hf)))

/-- The nodes an iterator holds are in the set. -/
def Iter.In (S : Addr → Prop) (it : Iter) : Prop :=
  (∀ a, it.node = some a → S a) ∧ ∀ a, some a ∈ it.stack → S a

theorem mem_iterChildren {n : Inner} {b : Addr} (hb : some b ∈ n.iterChildren) : some b ∈ n.children := by
  unfold Inner.iterChildren at hb
  split at hb
  · exact List.mem_of_mem_take hb
  · exact List.mem_of_mem_take hb
  · obtain ⟨p, hp, hb⟩ := List.mem_filterMap.1 hb
    obtain ⟨x, hx, hb⟩ := Option.map_eq_some_iff.1 hb
    cases hb
    exact mem_compact48 (List.mem_map.2 ⟨p, hp, hx⟩)
  · obtain ⟨p, hp, hb⟩ := List.mem_filterMap.1 hb
    obtain ⟨x, hx, hb⟩ := Option.map_eq_some_iff.1 hb
    cases hb
    exact hx ▸ hp

theorem mem_pathChildren {n : Inner} {b : Addr} (hb : b ∈ n.pathChildren) : some b ∈ n.children := by
  unfold Inner.pathChildren at hb
  split at hb
  · obtain ⟨p, hp, hb⟩ := List.mem_filterMap.1 hb
    exact hb ▸ List.mem_of_mem_take hp
  · obtain ⟨p, hp, hb⟩ := List.mem_filterMap.1 hb
    exact hb ▸ List.mem_of_mem_take hp
  · obtain ⟨p, hp, hb⟩ := List.mem_filterMap.1 hb
    exact mem_compact48 (List.mem_map.2 ⟨p, hp, hb⟩)
  · obtain ⟨p, hp, hb⟩ := List.mem_filterMap.1 hb
    exact hb ▸ hp

theorem seekPrefix_congr (hs : Same h h' S) (hl : h.length ≤ h'.length) (it : Iter) (hi : it.In S) (pre : Key) :
    seekPrefix h' it pre = seekPrefix h it pre ∧ ∀ p, seekPrefix h it pre = .ok p → p.1.In S ∧ S p.2 := by
  unfold seekPrefix
  cases hn : it.node with
  | none => exact ⟨rfl, fun p hp => by cases hp⟩
  | some a =>
    obtain ⟨e1, e2⟩ := seekLoop_congr hs hl pre (pre.length + 1) a 0 (hi.1 a hn)
    simp only [e1]
    refine ⟨trivial, fun p hp => ?_⟩
    obtain ⟨b, hb, hp⟩ := R.bind_ok hp
    cases hp
    have := e2 b hb
    refine ⟨⟨fun a ha => ?_, fun a ha => ?_⟩, this⟩
    · cases ha; exact this
    · simp at ha; rw [ha]; exact this

theorem iterNext_congr (hs : Same h h' S) (n : Nat) (it : Iter) (hi : it.In S) :
    iterNext h' n it = iterNext h n it ∧ ∀ p, iterNext h n it = .ok p → p.2.In S := by
  induction n generalizing it with
  | zero => exact ⟨rfl, fun p hp => by cases hp⟩
  | succ n ih =>
    unfold iterNext
    cases hst : it.stack with
    | nil => exact ⟨rfl, fun p hp => by cases hp; exact hi⟩
    | cons x rest =>
      have hrest : ∀ a, some a ∈ rest → S a := fun a ha => hi.2 a (by simp [hst, ha])
      cases x with
      | none => exact ⟨rfl, fun p hp => by cases hp; exact ⟨hi.1, hrest⟩⟩
      | some a =>
        have ha : S a := hi.2 a (by simp [hst])
        obtain ⟨c, k, h1, h2, -, h3⟩ := hs.rd ha
        simp only [h1, h2, Except.bind_ok]
        cases c with
        | leaf l =>
          simp only [Cell.setCh]
          split
          · exact ⟨rfl, fun p hp => by cases hp; exact ⟨hi.1, hrest⟩⟩
          · exact ih _ ⟨hi.1, hrest⟩
        | inner nd =>
          have hi' : Iter.In S { it with stack := nd.iterChildren ++ rest } := ⟨hi.1, fun b hb => by
            rcases List.mem_append.1 hb with hb | hb
            · exact h3 b (.inr (mem_iterChildren hb))
            · exact hrest b hb⟩
          have e : Inner.iterChildren { nd with ch := k } = nd.iterChildren := rfl
          simp only [Cell.setCh, e]
          cases hn : nd.leaf with
          | none => exact ih _ hi'
          | some l =>
            simp only
            rcases hs.rdLeaf (h3 l (.inl hn)) with ⟨lc, k', e3, e4⟩ | ⟨e3, e4⟩
            · simp only [e3, e4, Except.bind_ok]
              split
              · exact ⟨rfl, fun p hp => by cases hp; exact hi'⟩
              · exact ih _ hi'
            · simp only [e3, e4, Except.bind_error]
              exact ⟨trivial, fun p hp => by cases hp⟩

theorem pathNext_congr (hs : Same h h' S) (n : Nat) (it : PathIter) (hi : ∀ a ∈ it.stack, S a) :
    pathNext h' n it = pathNext h n it ∧ ∀ p, pathNext h n it = .ok p → ∀ a ∈ p.2.stack, S a := by
  induction n generalizing it with
  | zero => exact ⟨rfl, fun p hp => by cases hp⟩
  | succ n ih =>
    unfold pathNext
    cases hst : it.stack with
    | nil => exact ⟨rfl, fun p hp => by cases hp; exact hi⟩
    | cons a rest =>
      have hrest : ∀ a ∈ rest, S a := fun a ha => hi a (by simp [hst, ha])
      have ha : S a := hi a (by simp [hst])
      obtain ⟨c, k, h1, h2, -, h3⟩ := hs.rd ha
      simp only [h1, h2, Except.bind_ok]
      cases c with
      | leaf l =>
        simp only [Cell.setCh]
        split
        · exact ⟨rfl, fun p hp => by cases hp; exact hrest⟩
        · exact ih _ hrest
      | inner nd =>
        have e : Inner.pathChildren { nd with ch := k } = nd.pathChildren := rfl
        simp only [Cell.setCh, e]
        refine ih _ fun b hb => ?_
        rcases List.mem_append.1 hb with hb | hb
        · rcases List.mem_append.1 hb with hb | hb
          · exact h3 b (.inl (show nd.leaf = some b by simpa using hb))
          · exact h3 b (.inr (mem_pathChildren hb))
        · exact hrest b hb

/-- The nodes on a stack are in the set. -/
def StackIn (S : Addr → Prop) (st : List (Option Addr)) : Prop := ∀ a, some a ∈ st → S a

theorem lbNext_congr (hs : Same h h' S) (n : Nat) (st : List (Option Addr)) (hi : StackIn S st) :
    lbNext h' n st = lbNext h n st ∧ ∀ p, lbNext h n st = .ok p → StackIn S p.2 := by
  induction n generalizing st with
  | zero => exact ⟨by rw [lbNext.eq_def, lbNext.eq_def], fun p hp => by rw [lbNext.eq_def] at hp; cases hp⟩
  | succ n ih =>
    rw [lbNext.eq_def, lbNext.eq_def]
    simp only
    cases st with
    | nil => exact ⟨rfl, fun p hp => by cases hp; exact hi⟩
    | cons x rest =>
      have hrest : StackIn S rest := fun a ha => hi a (by simp [ha])
      cases x with
      | none => exact ⟨rfl, fun p hp => by cases hp; exact hrest⟩
      | some a =>
        have ha : S a := hi a (by simp)
        obtain ⟨c, k, h1, h2, -, h3⟩ := hs.rd ha
        simp only [h1, h2, Except.bind_ok]
        cases c with
        | leaf l => exact ⟨rfl, fun p hp => by cases hp; exact hrest⟩
        | inner nd =>
          have hi' : StackIn S (nd.iterChildren ++ rest) := fun b hb => by
            rcases List.mem_append.1 hb with hb | hb
            · exact h3 b (.inr (mem_iterChildren hb))
            · exact hrest b hb
          have e : Inner.iterChildren { nd with ch := k } = nd.iterChildren := rfl
          simp only [Cell.setCh, e]
          cases hn : nd.leaf with
          | none => exact ih _ hi'
          | some l =>
            simp only
            rcases hs.rdLeaf (h3 l (.inl hn)) with ⟨lc, k', e3, e4⟩ | ⟨e3, e4⟩
            · simp only [e3, e4, Except.bind_ok]
              exact ⟨trivial, fun p hp => by cases hp; exact hi'⟩
            · simp only [e3, e4, Except.bind_error]
              exact ⟨trivial, fun p hp => by cases hp⟩

theorem nodeLeafKey_congr (hs : Same h h' S) {a : Addr} (ha : S a) : nodeLeafKey h' a = nodeLeafKey h a := by
  obtain ⟨c, k, h1, h2, -, h3⟩ := hs.rd ha
  unfold nodeLeafKey
  simp only [h1, h2, Except.bind_ok, Cell.nodeLeaf_setCh]
  cases hn : c.nodeLeaf with
  | none => rfl
  | some l =>
    simp only
    rcases hs.rdLeaf (h3 l (.inl hn)) with ⟨lc, k', e3, e4⟩ | ⟨e3, e4⟩
    · simp only [e3, e4, Except.bind_ok]
    · simp only [e3, e4, Except.bind_error]

theorem revNext_congr (hs : Same h h' S) (path : Key) (ex : List Addr) (n : Nat) (st : List (Option Addr)) (hi : StackIn S st) :
    revNext h' path ex n st = revNext h path ex n st ∧ ∀ p, revNext h path ex n st = .ok p → StackIn S p.2 := by
  induction n generalizing st with
  | zero => exact ⟨by rw [revNext.eq_def, revNext.eq_def], fun p hp => by rw [revNext.eq_def] at hp; cases hp⟩
  | succ n ih =>
    rw [revNext.eq_def, revNext.eq_def]
    simp only
    cases st with
    | nil => exact ⟨rfl, fun p hp => by cases hp; exact hi⟩
    | cons x rest =>
      have hrest : StackIn S rest := fun a ha => hi a (by simp [ha])
      cases x with
      | none => exact ⟨rfl, fun p hp => by cases hp; exact hrest⟩
      | some a =>
        have ha : S a := hi a (by simp)
        obtain ⟨c, k, h1, h2, -, h3⟩ := hs.rd ha
        simp only [h1, h2, Except.bind_ok]
        cases c with
        | leaf l =>
          simp only [Cell.setCh]
          split
          · exact ⟨rfl, fun p hp => by cases hp; exact hrest⟩
          · exact ih _ hrest
        | inner nd =>
          have e : Inner.revChildren { nd with ch := k } = nd.revChildren := rfl
          have hrev : ∀ st, StackIn S st → StackIn S (nd.revChildren ++ st) := fun st hst b hb => by
            rcases List.mem_append.1 hb with hb | hb
            · exact h3 b (.inr (mem_iterChildren (List.mem_reverse.1 hb)))
            · exact hst b hb
          simp only [Cell.setCh, e]
          cases hn : nd.leaf with
          | none =>
            simp only [leafOf, Except.bind_ok, pure_bind, revLeafPush]
            split
            · exact ih _ hrest
            · exact ih _ (hrev _ hrest)
          | some l =>
            have hl := h3 l (.inl hn)
            simp only [leafOf, bind_bind]
            rcases hs.rdLeaf hl with ⟨lc, k', e3, e4⟩ | ⟨e3, e4⟩
            · simp only [e3, e4, Except.bind_ok, pure_bind]
              have hp : ∀ (lc : LeafC V) (rest : List (Option Addr)), StackIn S rest →
                  StackIn S (revLeafPush path (some (l, lc)) rest) := fun lc rest hr b hb => by
                unfold revLeafPush at hb
                simp only at hb
                split at hb
                · rcases List.mem_cons.1 hb with hb | hb
                  · cases hb; exact hl
                  · exact hr b hb
                · exact hr b hb
              have he : ∀ rest, revLeafPush path (some (l, { lc with ch := k' })) rest = revLeafPush path (some (l, lc)) rest :=
                fun _ => rfl
              simp only [he]
              split
              · exact ih _ (hp lc rest hrest)
              · split
                · exact ⟨rfl, fun p hp' => by cases hp'; exact hrev _ (hp lc rest hrest)⟩
                · exact ih _ (hrev _ (hp lc rest hrest))
            · simp only [e3, e4, Except.bind_error]
              exact ⟨trivial, fun p hp => by cases hp⟩

end Art
