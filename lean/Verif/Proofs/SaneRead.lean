import Verif.Proofs.SaneDel
import Verif.Proofs.RankRead
import Verif.Proofs.RankStop
import Verif.Proofs.Congr3
import Verif.Proofs.RepRead
/-
Reads of a well-shaped heap do not panic.
-/
set_option autoImplicit false
set_option linter.unusedVariables false
set_option linter.unusedSimpArgs false
set_option linter.unusedSectionVars false
namespace Art
variable {V : Type} {F : Prop} {h : Heap V} {α β : Type}

/-- No panic: at most a loop bound of the model is exhausted. -/
def Calm (r : R α) : Prop := ∀ e, r = .error e → e = .fuel

theorem Calm.ok {a : α} : Calm (Except.ok a : R α) := fun e he => nomatch he
theorem Calm.pure' {a : α} : Calm (pure a : R α) := fun e he => nomatch he
theorem Calm.fuel : Calm (Except.error .fuel : R α) := fun e he => by cases he; rfl
theorem Calm.bind {r : R α} {k : α → R β} (h1 : Calm r) (h2 : ∀ a, r = .ok a → Calm (k a)) : Calm (r >>= k) := by
  cases r with
  | error e => intro e' he; cases he; exact h1 e rfl
  | ok a => exact h2 a rfl
theorem Calm.got {r : R α} (h1 : Calm r) (h2 : r ≠ .error .fuel) : ∃ a, r = .ok a := by
  cases r with
  | ok a => exact ⟨a, rfl⟩
  | error e => exact absurd (congrArg Except.error (h1 e rfl)) h2

theorem rd_calm {a : Addr} (ha : a < h.length) : Calm (rd h a) := by
  unfold rd; rw [List.getElem?_eq_getElem ha]; exact .ok
theorem IsLf.rd {l : Addr} (hl : IsLf h l) : Calm (rdLeaf h l) := by
  obtain ⟨lc, hl⟩ := hl
  unfold rdLeaf; rw [hl]; exact .ok
theorem IsN.lt {a : Addr} (ha : IsN F h a) : a < h.length := by
  obtain ⟨n, hn, _⟩ := ha; exact (List.getElem?_eq_some_iff.1 hn).1
theorem IsLf.lt {a : Addr} (ha : IsLf h a) : a < h.length := by
  obtain ⟨n, hn⟩ := ha; exact (List.getElem?_eq_some_iff.1 hn).1

theorem Sane.lf (hj : Sane F h) {a : Addr} {c : Cell V} (hc : h[a]? = some c) {l : Addr} (hl : c.nodeLeaf = some l) : IsLf h l := by
  cases c with
  | leaf x => cases hl
  | inner n => exact (hj a _ hc).2.1 l hl
theorem Sane.chd (hj : Sane F h) {a : Addr} {c : Cell V} (hc : h[a]? = some c) {b : Addr} (hb : some b ∈ c.children) : IsN F h b := by
  cases c with
  | leaf x => cases hb
  | inner n => exact (hj a _ hc).2.2 b hb
theorem Sane.pts (hj : Sane F h) {a : Addr} {c : Cell V} (hc : h[a]? = some c) {b : Addr} (hb : c.Pts b) : b < h.length := by
  cases c with
  | leaf x => rcases hb with hb | hb <;> cases hb
  | inner n =>
    rcases hb with hb | hb
    · exact ((hj a _ hc).2.1 b hb).lt
    · exact ((hj a _ hc).2.2 b hb).lt

theorem Sane.same (hj : Sane F h) : Same h h (· < h.length) :=
  ⟨fun a ha => ⟨h[a], List.getElem?_eq_getElem ha, fun b hb => hj.pts (List.getElem?_eq_getElem ha) hb⟩, .refl _ _⟩

/-! ### Searching for a key -/

theorem scanEq_calm (xs ys : Key) (k i : Nat) (h1 : i + k ≤ xs.length) (h2 : i + k ≤ ys.length) : Calm (scanEq xs ys k i) := by
  obtain ⟨j, st, hs, _⟩ := scanEq_spec xs ys k i h1 h2
  rw [hs]; exact .ok

theorem byteAt_calm {k : Key} {i : Nat} (hi : i < k.length) : Calm (byteAt k i) := by
  unfold byteAt; rw [List.getElem?_eq_getElem hi]; exact .ok

theorem prefixBails_calm {c : Cell V} (hp : c.part.length = 10 ∨ c.partialLen = 0) (key : Key) (d : Nat) : Calm (prefixBails c key d) := by
  unfold prefixBails
  split
  · rename_i h0
    have hp : c.part.length = 10 := by omega
    refine Calm.bind ?_ fun _ _ => .pure'
    unfold checkPrefix
    refine Calm.bind (scanEq_calm _ _ _ _ ?_ ?_) fun _ _ => .pure'
    · rw [hp, show maxPrefixLen = 10 from rfl]; omega
    · rw [List.length_drop]; omega
  · exact .pure'

theorem Sane.part (hj : Sane True h) {a : Addr} {c : Cell V} (hc : h[a]? = some c) : c.part.length = 10 ∨ c.partialLen = 0 := by
  cases c with
  | leaf l => exact .inr rfl
  | inner n => exact (hj a _ hc).1.part trivial

theorem getChild_calm {n : Inner} (hs : n.Shape F) {i : Nat} (hi : i < n.kind.childrenLen) : Calm (n.getChild (i : Nat)) := by
  have hl : i < n.children.length := by rw [hs.clen]; exact hi
  unfold Inner.getChild
  split
  · split <;> exact .ok
  · rw [if_neg (by omega), Int.toNat_natCast, List.getElem?_eq_getElem hl]; exact .ok

theorem findChild_calm {c : Cell V} {a : Addr} (hj : Sane F h) (hc : h[a]? = some c) (b : Byte) : Calm (c.findChild b) := by
  cases c with
  | leaf l => exact .ok
  | inner n =>
    have hs : n.Shape F := (hj a _ hc).1
    have key : (n.kind = .n4 ∨ n.kind = .n16) → Calm (do
        let idx := goSearch n.numChildren.toNat (fun i => (n.keys[i]?).getD 0 > b)
        if idx ≥ 1 ∧ n.keys[idx - 1]? = some b then
          let ch ← n.getChild (idx - 1 : Nat)
          pure (ch, idx - 1)
        else pure (none, 0) : R (Option Addr × Nat)) := by
      intro hk
      simp only
      split
      · rename_i hi
        refine Calm.bind (getChild_calm hs ?_) fun _ _ => .pure'
        have h1 := (List.getElem?_eq_some_iff.1 hi.2).1
        rw [hs.klen] at h1
        rcases hk with hk | hk <;> rw [hk] at h1 ⊢ <;> exact h1
      · exact .pure'
    show Calm (n.findChild b)
    unfold Inner.findChild
    split
    · exact key (.inl ‹_›)
    · exact key (.inr ‹_›)
    · rename_i hk
      have hb : b.toNat < n.keys.length := by rw [hs.klen, hk]; exact b.toNat_lt
      refine Calm.bind (r := n.getKeyAtIdx b.toNat) ?_ fun i hi => ?_
      · unfold Inner.getKeyAtIdx
        rw [List.getElem?_eq_getElem hb]
        split <;> exact .ok
      · have he : i.toNat ≤ 48 := by
          refine hs.ent hk i ?_
          unfold Inner.getKeyAtIdx at hi
          rw [hk, List.getElem?_eq_getElem hb] at hi
          cases hi
          exact List.getElem_mem _
        split
        · rename_i hne
          refine Calm.bind (getChild_calm hs ?_) fun _ _ => .pure'
          rw [hk]
          have h1 : i.toNat ≠ 0 := fun e => hne (UInt8.toNat_inj.1 e)
          have h2 := UInt8.toNat_sub i 1
          have h3 : (1 : UInt8).toNat = 1 := rfl
          show (i - 1).toNat < 48
          omega
        · exact .pure'
    · rename_i hk
      refine Calm.bind (getChild_calm hs (by rw [hk]; exact b.toNat_lt)) fun ch _ => ?_
      split <;> exact .pure'

theorem searchChildren_calm (hj : Sane F h) (key : Key) (l : List (Option Addr)) (hl : ∀ b, some b ∈ l → b < h.length) : Calm (searchChildren h key l) := by
  induction l with
  | nil => exact .ok
  | cons x l ih =>
    have ih := ih fun b hb => hl b (.tail _ hb)
    cases x with
    | none => exact ih
    | some ch =>
      unfold searchChildren
      refine Calm.bind (rd_calm (hl ch (.head _))) fun c hc => ?_
      split
      · exact ih
      · rename_i l' hl'
        refine Calm.bind (hj.lf (rd_ok hc) hl').rd fun lc _ => ?_
        split
        · exact .pure'
        · exact ih

theorem searchStop_calm (hj : Sane F h) {a : Addr} {c : Cell V} (hc : h[a]? = some c) (key : Key) : Calm (searchStop h a c key) := by
  unfold searchStop
  refine Calm.bind ?_ fun r _ => ?_
  · unfold searchOwn
    split
    · exact .pure'
    · exact Calm.bind (hj.lf hc ‹_›).rd fun _ _ => .pure'
  · split
    · exact .pure'
    · refine Calm.bind (searchChildren_calm hj _ _ fun b hb => (hj.chd hc hb).lt) fun r _ => ?_
      split <;> exact .pure'

theorem searchLeaf_calm (hj : Sane F h) {a : Addr} {c : Cell V} (hc : h[a]? = some c) (key : Key) : Calm (searchLeaf h a c key) := by
  unfold searchLeaf
  split
  · split
    · exact .pure'
    · split
      · exact .pure'
      · exact Calm.bind (hj.lf hc ‹_›).rd fun _ _ => .pure'
  · exact .pure'

theorem searchLoopAt_calm (hj : Sane True h) (key : Key) (fuel : Nat) (a : Addr) (d : Nat) (ha : a < h.length) :
    Calm (searchLoopAt h key fuel a d) := by
  induction fuel generalizing a d with
  | zero => exact .fuel
  | succ fuel ih =>
    unfold searchLoopAt
    refine Calm.bind (rd_calm ha) fun c hc => ?_
    have hc := rd_ok hc
    refine Calm.bind (searchLeaf_calm hj hc _) fun r _ => ?_
    split
    · exact .pure'
    · refine Calm.bind (prefixBails_calm (hj.part hc) _ _) fun b _ => ?_
      split
      · exact searchStop_calm hj hc _
      · split
        · exact searchStop_calm hj hc _
        · refine Calm.bind (byteAt_calm (by omega)) fun b _ => Calm.bind (findChild_calm hj hc _) fun r hr => ?_
          split
          · exact searchStop_calm hj hc _
          · exact ih _ _ (hj.chd hc (Cell.mem_findChild hr)).lt

theorem search_calm (hj : Sane True h) {a : Addr} (ha : a < h.length) (key : Key) : Calm (search h a key) := searchLoopAt_calm hj _ _ _ _ ha

theorem treeGet_calm (hj : Sane True h) {t : Tree} (ht : t.root < h.length) (key : Key) : Calm (treeGet h t key) :=
  Calm.bind (search_calm hj ht _) fun _ _ => .pure'

theorem lpChildren_calm (hj : Sane F h) (key : Key) (l : List (Option Addr)) (last : Option Addr) (hl : ∀ b, some b ∈ l → b < h.length) :
    Calm (lpChildren h key l last) := by
  induction l generalizing last with
  | nil => exact .ok
  | cons x l ih =>
    have ih := fun last => ih last fun b hb => hl b (.tail _ hb)
    cases x with
    | none => exact ih _
    | some ch =>
      unfold lpChildren
      refine Calm.bind (rd_calm (hl ch (.head _))) fun c hc => ?_
      split
      · exact ih _
      · exact Calm.bind (hj.lf (rd_ok hc) ‹_›).rd fun lc _ => ih _

/-- The pointer is to a leaf. -/
def OLf (h : Heap V) (o : Option Addr) : Prop := ∀ l, o = some l → IsLf h l

theorem lpChildren_lf (hj : Sane F h) (key : Key) (l : List (Option Addr)) (last : Option Addr) (h0 : OLf h last)
    {r : Option Addr} (hr : lpChildren h key l last = .ok r) : OLf h r := by
  induction l generalizing last with
  | nil => cases hr; exact h0
  | cons x l ih =>
    cases x with
    | none => exact ih _ h0 hr
    | some ch =>
      unfold lpChildren at hr
      cases hc : rd h ch with
      | error e => rw [hc] at hr; cases hr
      | ok c =>
        rw [hc, Except.bind_ok] at hr
        split at hr
        · exact ih _ h0 hr
        · rename_i l' hl'
          cases hlc : rdLeaf h l' with
          | error e => rw [hlc] at hr; cases hr
          | ok lc =>
            rw [hlc, Except.bind_ok] at hr
            refine ih _ ?_ hr
            split
            · intro x hx; cases hx; exact hj.lf (rd_ok hc) hl'
            · exact h0

theorem lpOwn_lf (hj : Sane F h) (key : Key) {a : Addr} {c : Cell V} (hc : h[a]? = some c) (last : Option Addr) (h0 : OLf h last) :
    Calm (lpOwn h key c last) ∧ ∀ r, lpOwn h key c last = .ok r → OLf h r := by
  unfold lpOwn
  split
  · exact ⟨.pure', fun r hr => by cases hr; exact h0⟩
  · rename_i l hl
    have g := hj.lf hc hl
    refine ⟨Calm.bind g.rd fun _ _ => .pure', fun r hr => ?_⟩
    cases hlc : rdLeaf h l with
    | error e => rw [hlc] at hr; cases hr
    | ok lc =>
      rw [hlc] at hr
      cases hr
      split
      · intro x hx; cases hx; exact g
      · exact h0

theorem lpLoop_calm (hj : Sane True h) (key : Key) (fuel : Nat) (a : Addr) (d : Nat) (last : Option Addr) (ha : a < h.length) (h0 : OLf h last) :
    Calm (lpLoop h key fuel a d last) ∧ ∀ r, lpLoop h key fuel a d last = .ok r → OLf h r := by
  induction fuel generalizing a d last with
  | zero => exact ⟨.fuel, fun r hr => nomatch hr⟩
  | succ fuel ih =>
    unfold lpLoop
    have hc : h[a]? = some h[a] := List.getElem?_eq_getElem ha
    generalize h[a] = c at hc
    rw [show rd h a = .ok c by unfold rd; rw [hc], Except.bind_ok]
    obtain ⟨b, hb⟩ := (prefixBails_calm (hj.part hc) key d).got (prefixBails_nofuel _ _ _)
    rw [hb, Except.bind_ok]
    split
    · exact ⟨.pure', fun r hr => by cases hr; exact h0⟩
    · split
      · exact ⟨.pure', fun r hr => by cases hr; exact h0⟩
      · obtain ⟨o1, o2⟩ := lpOwn_lf hj key hc last h0
        obtain ⟨l1, h1⟩ := o1.got (lpOwn_nofuel _ _ _ _)
        rw [h1, Except.bind_ok]
        have g1 := o2 _ h1
        obtain ⟨l2, h2⟩ := (lpChildren_calm hj key c.children l1 fun b hb => (hj.chd hc hb).lt).got (lpChildren_nofuel _ _ _ _)
        rw [h2, Except.bind_ok]
        have g2 := lpChildren_lf hj key _ _ g1 h2
        obtain ⟨y, h3⟩ := (byteAt_calm (k := key) (i := d + c.partialLen) (by omega)).got (byteAt_nofuel _ _)
        rw [h3, Except.bind_ok]
        obtain ⟨z, h4⟩ := (findChild_calm hj hc y).got (c.findChild_nofuel _)
        rw [h4, Except.bind_ok]
        split
        · exact ⟨.pure', fun r hr => by cases hr; exact g2⟩
        · exact ih _ _ _ (hj.chd hc (Cell.mem_findChild h4)).lt g2

theorem longestPrefix_calm (hj : Sane True h) {t : Tree} (ht : t.root < h.length) (k : Key) : Calm (longestPrefix h t k) := by
  unfold longestPrefix
  refine Calm.bind (rd_calm ht) fun c hc => ?_
  have h0 : OLf h c.nodeLeaf := fun l hl => hj.lf (rd_ok hc) hl
  refine Calm.bind (lpLoop_calm hj _ _ _ _ _ ht h0).1 fun r hr => ?_
  split
  · exact .pure'
  · exact Calm.bind ((lpLoop_calm hj _ _ _ _ _ ht h0).2 _ hr _ rfl).rd fun _ _ => .pure'

/-! ### Walk -/

theorem walkChildren_calm {rec : Addr → R (List (Key × V) × Bool)} (l : List (Option Addr))
    (hl : ∀ b, some b ∈ l → Calm (rec b)) : Calm (walkChildren rec l) := by
  induction l with
  | nil => exact .ok
  | cons x l ih =>
    cases x with
    | none => exact ih fun b hb => hl b (.tail _ hb)
    | some ch =>
      unfold walkChildren
      refine Calm.bind (hl ch (.head _)) fun p _ => ?_
      obtain ⟨l1, st⟩ := p
      simp only
      split
      · exact .pure'
      · exact Calm.bind (ih fun b hb => hl b (.tail _ hb)) fun _ _ => .pure'

theorem recursiveWalk_calm [Inhabited V] (hj : Sane F h) (fn : Key → V → Bool) (fuel : Nat) (a : Addr) (ha : a < h.length) :
    Calm (recursiveWalk h fn fuel a) := by
  induction fuel generalizing a with
  | zero => exact .fuel
  | succ fuel ih =>
    unfold recursiveWalk
    refine Calm.bind (rd_calm ha) fun c hc => ?_
    have hc := rd_ok hc
    refine Calm.bind ?_ fun p _ => ?_
    · unfold walkOwn
      split
      · exact Calm.bind (hj.lf hc ‹_›).rd fun _ _ => .pure'
      · exact .pure'
    · obtain ⟨calls, st⟩ := p
      simp only
      split
      · exact .pure'
      · exact Calm.bind (walkChildren_calm _ fun b hb => ih b (hj.chd hc hb).lt) fun _ _ => .pure'

theorem treeWalk_calm [Inhabited V] (hj : Sane F h) {t : Tree} (ht : t.root < h.length) (fn : Key → V → Bool) : Calm (treeWalk h t fn) :=
  Calm.bind (recursiveWalk_calm hj _ _ _ ht) fun _ _ => .pure'

/-! ### Iterators -/

theorem iterNext_calm (hj : Sane F h) (n : Nat) (it : Iter) (hi : it.In (· < h.length)) : Calm (iterNext h n it) := by
  induction n generalizing it with
  | zero => exact .fuel
  | succ n ih =>
    unfold iterNext
    split
    · exact .ok
    · exact .ok
    · rename_i a rest hs
      have ha : a < h.length := hi.2 a (by rw [hs]; exact .head _)
      have hrest : ∀ b, some b ∈ rest → b < h.length := fun b hb => hi.2 b (by rw [hs]; exact .tail _ hb)
      refine Calm.bind (rd_calm ha) fun c hc => ?_
      have hc := rd_ok hc
      cases c with
      | leaf l =>
        simp only
        split
        · exact .pure'
        · exact ih _ ⟨hi.1, hrest⟩
      | inner nd =>
        have h2 : Iter.In (· < h.length) { it with stack := nd.iterChildren ++ rest } := ⟨hi.1, fun b hb => by
          rcases List.mem_append.1 hb with hb | hb
          · exact hj.pts hc (.inr (mem_iterChildren hb))
          · exact hrest b hb⟩
        simp only
        split
        · exact ih _ h2
        · rename_i l hl
          refine Calm.bind (hj.lf hc hl).rd fun lc _ => ?_
          split
          · exact .pure'
          · exact ih _ h2

theorem iterCollect_calm (hj : Sane F h) (n : Nat) (it : Iter) (hi : it.In (· < h.length)) : Calm (iterCollect h n it) := by
  induction n generalizing it with
  | zero => exact .fuel
  | succ n ih =>
    unfold iterCollect
    refine Calm.bind (iterNext_calm hj _ _ hi) fun p hp => ?_
    have := (iterNext_congr hj.same _ _ hi).2 p hp
    obtain ⟨r, it'⟩ := p
    cases r with
    | none => exact .pure'
    | some kv => exact Calm.bind (ih _ this) fun _ _ => .pure'

theorem pathNext_calm (hj : Sane F h) (n : Nat) (it : PathIter) (hi : ∀ a ∈ it.stack, a < h.length) : Calm (pathNext h n it) := by
  induction n generalizing it with
  | zero => exact .fuel
  | succ n ih =>
    unfold pathNext
    split
    · exact .ok
    · rename_i a rest hs
      have ha : a < h.length := hi a (by rw [hs]; exact .head _)
      have hrest : ∀ b ∈ rest, b < h.length := fun b hb => hi b (by rw [hs]; exact .tail _ hb)
      refine Calm.bind (rd_calm ha) fun c hc => ?_
      have hc := rd_ok hc
      cases c with
      | leaf l =>
        simp only
        split
        · exact .pure'
        · exact ih _ hrest
      | inner nd =>
        refine ih _ fun b hb => ?_
        simp only [List.mem_append, Option.mem_toList] at hb
        rcases hb with (hb | hb) | hb
        · exact hj.pts hc (.inl hb)
        · exact hj.pts hc (.inr (mem_pathChildren hb))
        · exact hrest b hb

theorem pathCollect_calm (hj : Sane F h) (n : Nat) (it : PathIter) (hi : ∀ a ∈ it.stack, a < h.length) : Calm (pathCollect h n it) := by
  induction n generalizing it with
  | zero => exact .fuel
  | succ n ih =>
    unfold pathCollect
    refine Calm.bind (pathNext_calm hj _ _ hi) fun p hp => ?_
    have := (pathNext_congr hj.same _ _ hi).2 p hp
    obtain ⟨r, it'⟩ := p
    cases r with
    | none => exact .pure'
    | some kv => exact Calm.bind (ih _ this) fun _ _ => .pure'

theorem lbNext_calm (hj : Sane F h) (n : Nat) (st : List (Option Addr)) (hi : StackIn (· < h.length) st) : Calm (lbNext h n st) := by
  induction n generalizing st with
  | zero => rw [lbNext.eq_def]; exact .fuel
  | succ n ih =>
    unfold lbNext
    split
    · exact .ok
    · exact .ok
    · rename_i a rest
      have ha : a < h.length := hi a (.head _)
      have hrest : ∀ b, some b ∈ rest → b < h.length := fun b hb => hi b (.tail _ hb)
      refine Calm.bind (rd_calm ha) fun c hc => ?_
      have hc := rd_ok hc
      cases c with
      | leaf l => exact .pure'
      | inner nd =>
        simp only
        split
        · refine ih _ fun b hb => ?_
          rcases List.mem_append.1 hb with hb | hb
          · exact hj.pts hc (.inr (mem_iterChildren hb))
          · exact hrest b hb
        · exact Calm.bind (hj.lf hc ‹_›).rd fun lc _ => .pure'

theorem lbCollect_calm (hj : Sane F h) (n : Nat) (st : List (Option Addr)) (hi : StackIn (· < h.length) st) : Calm (lbCollect h n st) := by
  induction n generalizing st with
  | zero => exact .fuel
  | succ n ih =>
    unfold lbCollect
    refine Calm.bind (lbNext_calm hj _ _ hi) fun p hp => ?_
    have := (lbNext_congr hj.same _ _ hi).2 p hp
    obtain ⟨r, it'⟩ := p
    cases r with
    | none => exact .pure'
    | some kv => exact Calm.bind (ih _ this) fun _ _ => .pure'

theorem revLeafPush_in {path : Key} {n : Inner} {lf : Option (Addr × LeafC V)} (hl : leafOf h n.leaf = .ok lf) {rest : List (Option Addr)}
    (hr : ∀ b, some b ∈ rest → b < h.length) (hp : ∀ l, n.leaf = some l → l < h.length) : ∀ b, some b ∈ revLeafPush path lf rest → b < h.length := by
  obtain ⟨ps, h1, h2⟩ := mem_revLeafPush (path := path) hl rest
  rw [h1]
  intro b hb
  rcases List.mem_append.1 hb with hb | hb
  · exact hp b (h2 b hb)
  · exact hr b hb

theorem revNext_calm (hj : Sane F h) (path : Key) (ex : List Addr) (n : Nat) (st : List (Option Addr)) (hi : StackIn (· < h.length) st) :
    Calm (revNext h path ex n st) := by
  induction n generalizing st with
  | zero => rw [revNext.eq_def]; exact .fuel
  | succ n ih =>
    unfold revNext
    split
    · exact .ok
    · exact .ok
    · rename_i a rest
      have ha : a < h.length := hi a (.head _)
      have hrest : ∀ b, some b ∈ rest → b < h.length := fun b hb => hi b (.tail _ hb)
      refine Calm.bind (rd_calm ha) fun c hc => ?_
      have hc := rd_ok hc
      cases c with
      | leaf l =>
        simp only
        split
        · exact .pure'
        · exact ih _ hrest
      | inner nd =>
        simp only
        refine Calm.bind ?_ fun lf hlf => ?_
        · unfold leafOf
          split
          · exact .pure'
          · exact Calm.bind (hj.lf (c := .inner nd) hc ‹_›).rd fun _ _ => .pure'
        · have hp := revLeafPush_in (path := path) hlf hrest fun l hl => (hj.lf (c := .inner nd) hc hl).lt
          have hp2 : ∀ b, some b ∈ nd.revChildren ++ revLeafPush path lf rest → b < h.length := fun b hb => by
            rcases List.mem_append.1 hb with hb | hb
            · exact hj.pts hc (.inr (mem_iterChildren (List.mem_reverse.1 hb)))
            · exact hp b hb
          split
          · exact ih _ hp
          · split
            · split
              · exact .pure'
              · exact ih _ hp2
            · exact ih _ hp2

theorem revPrevious_calm (hj : Sane F h) (n : Nat) (it : RevIter) (hi : it.In (· < h.length)) : Calm (revPrevious h n it) := by
  unfold revPrevious
  refine Calm.bind (revNext_calm hj _ _ _ _ ?_) fun p _ => .pure'
  cases hst : it.stack with
  | some s => exact hi.2 s hst
  | none =>
    cases hn : it.node with
    | none => exact fun a ha => nomatch ha
    | some a => intro b hb; rw [List.mem_singleton] at hb; cases hb; exact hi.1 _ hn

theorem revCollect_calm (hj : Sane F h) (n : Nat) (it : RevIter) (hi : it.In (· < h.length)) : Calm (revCollect h n it) := by
  induction n generalizing it with
  | zero => exact .fuel
  | succ n ih =>
    unfold revCollect
    refine Calm.bind (revPrevious_calm hj _ _ hi) fun p hp => ?_
    have := (revPrevious_congr hj.same _ hi).2 p hp
    obtain ⟨r, it'⟩ := p
    cases r with
    | none => exact .pure'
    | some kv => exact Calm.bind (ih _ this) fun _ _ => .pure'

/-! ### The node watched -/

/-- If there is a result, it satisfies `P`. -/
def Gets (P : α → Prop) (r : R α) : Prop := ∀ a, r = .ok a → P a

theorem Gets.pure' {P : α → Prop} {a : α} (h : P a) : Gets P (pure a : R α) := fun b hb => by cases hb; exact h
theorem Gets.bind {P : β → Prop} {r : R α} {k : α → R β} (h : ∀ a, r = .ok a → Gets P (k a)) : Gets P (r >>= k) := by
  cases r with
  | error e => exact fun b hb => nomatch hb
  | ok a => exact h a rfl

theorem searchChildren_lt (hj : Sane F h) (key : Key) (l : List (Option Addr)) :
    Gets (fun o => ∀ p, o = some p → p.2 < h.length) (searchChildren h key l) := by
  induction l with
  | nil => exact .pure' fun p hp => nomatch hp
  | cons x l ih =>
    cases x with
    | none => exact ih
    | some ch =>
      unfold searchChildren
      refine Gets.bind fun c hc => ?_
      split
      · exact ih
      · rename_i l' hl'
        refine Gets.bind fun lc _ => ?_
        split
        · exact .pure' fun p hp => by cases hp; exact (hj.lf (rd_ok hc) hl').lt
        · exact ih

theorem searchStop_lt (hj : Sane F h) {a : Addr} {c : Cell V} (hc : h[a]? = some c) (key : Key) : Gets (·.watch < h.length) (searchStop h a c key) := by
  unfold searchStop
  refine Gets.bind fun r hr => ?_
  split
  · rename_i v l
    refine .pure' ?_
    unfold searchOwn at hr
    split at hr
    · cases hr
    · rename_i l' hl'
      have := hj.lf hc hl'
      cases hlc : rdLeaf h l' with
      | error e => rw [hlc] at hr; cases hr
      | ok lc =>
        rw [hlc, Except.bind_ok] at hr
        split at hr <;> cases hr
        exact this.lt
  · refine Gets.bind fun r hr => ?_
    split
    · exact .pure' (searchChildren_lt hj _ _ _ hr _ rfl)
    · exact .pure' (List.getElem?_eq_some_iff.1 hc).1

theorem searchLoopAt_lt (hj : Sane F h) (key : Key) (fuel : Nat) (a : Addr) (d : Nat) : Gets (·.watch < h.length) (searchLoopAt h key fuel a d) := by
  induction fuel generalizing a d with
  | zero => exact fun b hb => nomatch hb
  | succ fuel ih =>
    unfold searchLoopAt
    refine Gets.bind fun c hc => ?_
    have hc := rd_ok hc
    refine Gets.bind fun r hr => ?_
    split
    · refine .pure' ?_
      unfold searchLeaf at hr
      split at hr
      · split at hr
        · cases hr2 : leafMatches _ key <;> rw [hr2] at hr <;> cases hr
          exact (List.getElem?_eq_some_iff.1 hc).1
        · split at hr
          · cases hr
          · rename_i l' hl'
            have := hj.lf (c := .inner _) hc hl'
            cases hlc : rdLeaf h l' with
            | error e => rw [hlc] at hr; cases hr
            | ok lc =>
              rw [hlc, Except.bind_ok] at hr
              split at hr <;> cases hr
              exact this.lt
      · cases hr
    · refine Gets.bind fun b _ => ?_
      split
      · exact searchStop_lt hj hc _
      · split
        · exact searchStop_lt hj hc _
        · refine Gets.bind fun b _ => Gets.bind fun r hr => ?_
          split
          · exact searchStop_lt hj hc _
          · exact ih _ _

/-- `GetWatch` returns. -/
theorem treeGetWatch_returns {s : St V} (hj : Sane True s.heap) {t : Tree} (ht : t.root < s.heap.length) (k : Key) :
    ∃ r s', (treeGetWatch t k : M V _) s = (.ok r, s') := by
  obtain ⟨hit, hh⟩ := (search_calm hj ht k).got (search_nofuel _ _ _)
  have hlt : hit.watch < s.heap.length := searchLoopAt_lt hj _ _ _ _ _ hh
  rw [treeGetWatch_run, hh]
  simp only [List.getElem?_eq_getElem hlt]
  exact ⟨_, _, rfl⟩

end Art
