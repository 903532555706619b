import Verif.Model.Handle
import Verif.Proofs.Sound
import Verif.Proofs.CleanBase
import Verif.Proofs.RepIter
/-
Iterators that are used in any way stay inside their tree.
-/
set_option autoImplicit false
set_option linter.unusedVariables false
set_option linter.unusedSimpArgs false
set_option linter.unusedSectionVars false
namespace Art
variable {V : Type} {h : Heap V} {S : Addr → Prop}

/-- A child that the node counts (not a pointer that was left behind in its array). -/
def Inner.Kid (n : Inner) (c : Addr) : Prop :=
  ∃ i : Nat, n.children[i]? = some (some c) ∧ (n.kind = .n4 ∨ n.kind = .n16 → i < n.numChildren.toNat)

/-- A set of nodes from which iterators do not get away. -/
structure Fold (h : Heap V) (S : Addr → Prop) : Prop where
  leaf : ∀ a n l, S a → h[a]? = some (.inner n) → n.leaf = some l → S l
  kid : ∀ a n c, S a → h[a]? = some (.inner n) → n.Kid c → S c

/-- The pair is that of a leaf of the set. -/
def PairIn (h : Heap V) (S : Addr → Prop) (kv : Key × V) : Prop :=
  ∃ a l, S a ∧ h[a]? = some (.leaf l) ∧ kv = (getKey l.key, l.value)

theorem Inner.Kid.getChild {n : Inner} {i : Int} {c : Addr} (e : n.getChild i = .ok (some c))
    (hi : n.kind = .n4 ∨ n.kind = .n16 → i.toNat < n.numChildren.toNat) : n.Kid c := by
  unfold Inner.getChild at e
  split at e
  · split at e
    · cases e
    · injection e with e
      cases hc : n.children[i.toNat]? with
      | none => rw [hc] at e; cases e
      | some o => rw [hc] at e; cases e; exact ⟨_, hc, hi⟩
  · split at e
    · cases e
    · split at e
      · next h1 => cases e; exact ⟨_, h1, hi⟩
      · cases e

theorem Inner.Kid.iterChildren {n : Inner} {c : Addr} (e : some c ∈ n.iterChildren) : n.Kid c := by
  unfold Inner.iterChildren at e
  have arr : some c ∈ n.children.take n.numChildren.toNat → n.Kid c := fun e => by
    obtain ⟨i, hi, e⟩ := List.mem_iff_getElem.1 e
    rw [List.getElem_take] at e
    rw [List.length_take] at hi
    exact ⟨i, by rw [List.getElem?_eq_getElem (by omega), e], fun _ => by omega⟩
  cases hk : n.kind <;> simp only [hk] at e
  · exact arr e
  · exact arr e
  · obtain ⟨p, hp, e⟩ := List.mem_filterMap.1 e
    rw [Option.map_eq_some_iff] at e
    obtain ⟨c', e, e'⟩ := e
    cases e'
    unfold compact48 at hp
    obtain ⟨i, -, hi⟩ := List.mem_filterMap.1 hp
    split at hi
    · split at hi
      · cases hi
        next k _ _ =>
        cases hc : n.children[(k - 1).toNat]? with
        | none => simp [hc] at e
        | some o =>
          simp only [hc, Option.getD_some] at e
          exact ⟨_, e ▸ hc, fun h' => by rw [hk] at h'; rcases h' with h' | h' <;> cases h'⟩
      · cases hi
    · cases hi
  · obtain ⟨p, hp, e⟩ := List.mem_filterMap.1 e
    rw [Option.map_eq_some_iff] at e
    obtain ⟨c', rfl, e'⟩ := e
    cases e'
    obtain ⟨i, hi, e⟩ := List.mem_iff_getElem.1 hp
    exact ⟨i, by rw [List.getElem?_eq_getElem hi, e], fun h' => by rw [hk] at h'; rcases h' with h' | h' <;> cases h'⟩

theorem Inner.Kid.findChild {n : Inner} {b : Byte} {c : Addr} {i : Nat} (e : n.findChild b = .ok (some c, i)) : n.Kid c := by
  unfold Inner.findChild at e
  have arr : ∀ j k, (n.getChild j >>= fun ch => (pure (ch, k) : R (Option Addr × Nat))) = .ok (some c, i) →
      (n.kind = .n4 ∨ n.kind = .n16 → j.toNat < n.numChildren.toNat) → n.Kid c := fun j k e hj => by
    obtain ⟨ch, h1, h2⟩ := R.bind_ok e
    cases h2
    exact Inner.Kid.getChild h1 hj
  split at e
  · dsimp only at e
    split at e
    · next h1 =>
      refine arr _ _ e fun _ => ?_
      have := goSearch_le n.numChildren.toNat (fun i => decide ((n.keys[i]?).getD 0 > b))
      omega
    · cases e
  · dsimp only at e
    split at e
    · next h1 =>
      refine arr _ _ e fun _ => ?_
      have := goSearch_le n.numChildren.toNat (fun i => decide ((n.keys[i]?).getD 0 > b))
      omega
    · cases e
  · next hk =>
    obtain ⟨k, -, e⟩ := R.bind_ok e
    split at e
    · exact arr _ _ e fun h' => by rw [hk] at h'; rcases h' with h' | h' <;> cases h'
    · cases e
  · next hk =>
    obtain ⟨ch, h1, e⟩ := R.bind_ok e
    split at e
    · cases e; exact Inner.Kid.getChild h1 fun h' => by rw [hk] at h'; rcases h' with h' | h' <;> cases h'
    · cases e

/-- What `getLowerBoundCh` of a small node returns. -/
theorem getLowerBoundCh_lt {n : Inner} {b : Byte} {i : Int} (e : n.getLowerBoundCh b = .ok i) (hi : i ≠ -1)
    (hk : n.kind = .n4 ∨ n.kind = .n16) : i.toNat < n.numChildren.toNat := by
  unfold Inner.getLowerBoundCh at e
  rcases hk with hk | hk
  all_goals
    simp only [hk] at e
    injection e with e
    split at e
    · omega
    · exact absurd e.symm hi

/-- All nodes of the stack are in the set. -/
def Held (S : Addr → Prop) (st : List (Option Addr)) : Prop := ∀ a, some a ∈ st → S a

theorem Held.nil : Held S [] := fun _ h => by cases h
theorem Held.cons {a : Addr} {st : List (Option Addr)} (ha : S a) (h : Held S st) : Held S (some a :: st) := fun b hb => by
  rcases List.mem_cons.1 hb with hb | hb
  · cases hb; exact ha
  · exact h b hb
theorem Held.tail {x : Option Addr} {st : List (Option Addr)} (h : Held S (x :: st)) : Held S st := fun b hb => h b (List.mem_cons_of_mem _ hb)
theorem Held.append {st st' : List (Option Addr)} (h : Held S st) (h' : Held S st') : Held S (st ++ st') := fun b hb =>
  (List.mem_append.1 hb).elim (h b) (h' b)

section
variable (hS : Fold h S)
include hS

theorem Fold.iter {a : Addr} {n : Inner} (ha : S a) (hc : h[a]? = some (.inner n)) : Held S n.iterChildren :=
  fun b hb => hS.kid a n b ha hc (.iterChildren hb)

/-! ### Forward iterators -/

theorem Fold.iterNext (fuel : Nat) (it : Iter) (r : Option (Key × V)) (it' : Iter) (hi : Held S it.stack)
    (e : iterNext h fuel it = .ok (r, it')) : it'.node = it.node ∧ Held S it'.stack ∧ ∀ kv, r = some kv → PairIn h S kv := by
  induction fuel generalizing it with
  | zero => cases e
  | succ n ih =>
    unfold Art.iterNext at e
    split at e
    · cases e; exact ⟨rfl, hi, fun _ h => by cases h⟩
    · next hst => cases e; exact ⟨rfl, (hst ▸ hi : Held S (_ :: _)).tail, fun _ h => by cases h⟩
    · next a rest hst =>
      rw [hst] at hi
      have ha := hi a (List.mem_cons_self ..)
      obtain ⟨c, hc, e⟩ := R.bind_ok e
      have hc := rd_ok hc
      cases c with
      | leaf l =>
        dsimp only at e
        split at e
        · cases e
          exact ⟨rfl, hi.tail, fun _ h => by cases h; exact ⟨a, l, ha, hc, rfl⟩⟩
        · exact ih { it with stack := rest } hi.tail e
      | inner nd =>
        dsimp only at e
        have hi' := (hS.iter ha hc).append hi.tail
        split at e
        · exact ih { it with stack := nd.iterChildren ++ rest } hi' e
        · next l hl =>
          obtain ⟨lc, hlc, e⟩ := R.bind_ok e
          split at e
          · cases e
            exact ⟨rfl, hi', fun _ h => by cases h; exact ⟨l, lc, hS.leaf a nd l ha hc hl, rdLeaf_ok hlc, rfl⟩⟩
          · exact ih { it with stack := nd.iterChildren ++ rest } hi' e

theorem Fold.seekLoop (p : Key) (fuel : Nat) (a : Addr) (d : Nat) (b : Addr) (ha : S a) (e : seekLoop h p fuel a d = .ok b) : S b := by
  induction fuel generalizing a d with
  | zero => cases e
  | succ n ih =>
    unfold Art.seekLoop at e
    obtain ⟨c, hc, e⟩ := R.bind_ok e
    obtain ⟨⟨stop, d'⟩, -, e⟩ := R.bind_ok e
    dsimp only at e
    split at e
    · cases e; exact ha
    · split at e
      · cases e; exact ha
      · obtain ⟨x, -, e⟩ := R.bind_ok e
        obtain ⟨⟨o, i⟩, hf, e2⟩ := R.bind_ok e
        cases o with
        | none => cases e2; exact ha
        | some ch =>
          dsimp only at e2
          cases c with
          | leaf l => cases hf
          | inner nd => exact ih ch _ (hS.kid a nd ch ha (rd_ok hc) (.findChild hf)) e2

theorem Fold.seekPrefix (it : Iter) (p : Key) (r : Iter × Addr) (hn : ∀ a, it.node = some a → S a) (e : seekPrefix h it p = .ok r) :
    (∀ a, r.1.node = some a → S a) ∧ Held S r.1.stack := by
  unfold Art.seekPrefix at e
  split at e
  · cases e
  · next a ha =>
    obtain ⟨b, hb, e⟩ := R.bind_ok e
    cases e
    have := hS.seekLoop p _ a 0 b (hn a ha) hb
    exact ⟨fun _ h => by cases h; exact this, .cons this .nil⟩

theorem Fold.fwdCalls (fuel : Nat) (cs : List FwdCall) (it it' : Iter) (l : List (Option (Key × V))) (hn : ∀ a, it.node = some a → S a)
    (hi : Held S it.stack) (e : fwdCalls h fuel it cs = .ok (l, it')) : ∀ kv, some kv ∈ l → PairIn h S kv := by
  induction cs generalizing it l with
  | nil => cases e; intro _ h; cases h
  | cons c cs ih =>
    cases c with
    | seek p =>
      obtain ⟨r, hr, e⟩ := R.bind_ok e
      obtain ⟨g1, g2⟩ := hS.seekPrefix it p r hn hr
      exact ih r.1 l g1 g2 e
    | next =>
      obtain ⟨⟨r, it1⟩, hr, e⟩ := R.bind_ok e
      obtain ⟨⟨l1, it2⟩, h2, e⟩ := R.bind_ok e
      cases e
      obtain ⟨g1, g2, g3⟩ := hS.iterNext fuel it r it1 hi hr
      intro kv hkv
      rcases List.mem_cons.1 hkv with hkv | hkv
      · exact g3 kv hkv.symm
      · exact ih it1 l1 (g1 ▸ hn) g2 h2 kv hkv

/-! ### Lower bound iterators -/

theorem Fold.lbNext (fuel : Nat) (st st' : List (Option Addr)) (r : Option (Key × V)) (hi : Held S st)
    (e : lbNext h fuel st = .ok (r, st')) : Held S st' ∧ ∀ kv, r = some kv → PairIn h S kv := by
  induction fuel generalizing st with
  | zero => cases e
  | succ n ih =>
    unfold Art.lbNext at e
    split at e
    · cases e; exact ⟨.nil, fun _ h => by cases h⟩
    · cases e; exact ⟨hi.tail, fun _ h => by cases h⟩
    · next a rest =>
      have ha := hi a (List.mem_cons_self ..)
      obtain ⟨c, hc, e⟩ := R.bind_ok e
      have hc := rd_ok hc
      cases c with
      | leaf l =>
        cases e
        exact ⟨hi.tail, fun _ h => by cases h; exact ⟨a, l, ha, hc, rfl⟩⟩
      | inner nd =>
        dsimp only at e
        have hi' := (hS.iter ha hc).append hi.tail
        split at e
        · exact ih _ hi' e
        · next l hl =>
          obtain ⟨lc, hlc, e⟩ := R.bind_ok e
          cases e
          exact ⟨hi', fun _ h => by cases h; exact ⟨l, lc, hS.leaf a nd l ha hc hl, rdLeaf_ok hlc, rfl⟩⟩

theorem Fold.lbPush (path : Key) (a : Addr) (st st' : List (Option Addr)) (ha : S a) (hi : Held S st) (e : lbPush h path a st = .ok st') :
    Held S st' := by
  unfold Art.lbPush at e
  obtain ⟨k, -, e⟩ := R.bind_ok e
  split at e
  · cases e; exact .cons ha hi
  · cases e
    split
    · exact .cons ha hi
    · exact hi

theorem Fold.lbPushParent (path : Key) (p : Option Addr) (st st' : List (Option Addr)) (hp : ∀ a, p = some a → S a) (hi : Held S st)
    (e : lbPushParent h path p st = .ok st') : Held S st' := by
  unfold Art.lbPushParent at e
  split at e
  · cases e; exact hi
  · next a =>
    obtain ⟨c, hc, e⟩ := R.bind_ok e
    split at e
    · cases e; exact hi
    · next l hl =>
      obtain ⟨lc, -, e⟩ := R.bind_ok e
      cases e
      cases c with
      | leaf => cases hl
      | inner n =>
        split
        · exact .cons (hS.leaf a n l (hp a rfl) (rd_ok hc) hl) hi
        · exact hi

theorem Fold.lbPushBoth (path : Key) (a : Addr) (p : Option Addr) (st st' : List (Option Addr)) (ha : S a) (hp : ∀ a, p = some a → S a)
    (hi : Held S st) (e : lbPushBoth h path a p st = .ok st') : Held S st' := by
  unfold Art.lbPushBoth at e
  obtain ⟨s1, h1, e⟩ := R.bind_ok e
  exact hS.lbPushParent path p s1 st' hp (hS.lbPush path a st s1 ha hi h1) e

theorem Fold.lbPushChildren (path : Key) (a : Addr) (c : Cell V) (lo : Nat) (strict : Bool) (k : Nat) (st st' : List (Option Addr)) (ha : S a)
    (hc : h[a]? = some c) (hk : k ≤ c.numChildren.toNat) (hi : Held S st) (e : lbPushChildren h path c lo strict k st = .ok st') : Held S st' := by
  induction k generalizing st with
  | zero => cases e; exact hi
  | succ k ih =>
    unfold Art.lbPushChildren at e
    split at e
    · cases e; exact hi
    · obtain ⟨o, ho, e⟩ := R.bind_ok e
      cases o with
      | none =>
        dsimp only at e
        split at e
        · cases e
        · exact ih st (by omega) hi e
      | some ch =>
        obtain ⟨s1, h1, e⟩ := R.bind_ok e
        cases c with
        | leaf => cases ho
        | inner n =>
          have hch := hS.kid a n ch ha hc (.getChild ho fun _ => by simp only [Int.toNat_natCast]; exact hk)
          exact ih s1 (by omega) (hS.lbPush path ch st s1 hch hi h1) e

theorem Fold.lowLoop (q : Key) (fuel : Nat) (node parent : Option Addr) (d : Nat) (seen : Bool) (st : List (Option Addr)) (r : List (Option Addr) × Bool)
    (hn : ∀ a, node = some a → S a) (hp : ∀ a, parent = some a → S a) (hi : Held S st) (e : lowLoop h q fuel node parent d seen st = .ok r) :
    Held S r.1 := by
  induction fuel generalizing node parent d seen st with
  | zero => cases e
  | succ n ih =>
    unfold Art.lowLoop at e
    have both : ∀ a, S a → (Art.lbPushBoth h q a parent st >>= fun s => (pure (s, false) : R (List (Option Addr) × Bool))) = .ok r → Held S r.1 := fun a ha e => by
      obtain ⟨s1, h1, e⟩ := R.bind_ok e
      cases e
      exact hS.lbPushBoth q a parent st s1 ha hp hi h1
    split at e
    · split at e
      · cases e; exact hi
      · next p =>
        obtain ⟨c, hc, e⟩ := R.bind_ok e
        split at e
        · cases e; exact hi
        · next l hl =>
          cases e
          cases c with
          | leaf => cases hl
          | inner nd => exact .cons (hS.leaf p nd l (hp p rfl) (rd_ok hc) hl) hi
    · next a =>
      have ha := hn a rfl
      obtain ⟨c, hc, e⟩ := R.bind_ok e
      have hc := rd_ok hc
      obtain ⟨cmp, -, e⟩ := R.bind_ok e
      split at e
      · exact both a ha e
      split at e
      · obtain ⟨s1, h1, e⟩ := R.bind_ok e
        cases e
        exact hS.lbPushParent q parent st s1 hp hi h1
      obtain ⟨lk, -, e⟩ := R.bind_ok e
      split at e
      · exact both a ha e
      obtain ⟨⟨stop, seen', d'⟩, -, e⟩ := R.bind_ok e
      dsimp only at e
      split at e
      · cases e; exact hi
      split at e
      · exact both a ha e
      obtain ⟨b, -, e⟩ := R.bind_ok e
      obtain ⟨idx0, hx, e⟩ := R.bind_ok e
      split at e
      · cases e; exact hi
      split at e
      · obtain ⟨s1, h1, e⟩ := R.bind_ok e
        cases e
        have fin : ∀ s2, Held S s2 → (match parent with | none => (Except.error Err.nilDeref : R _) | some _ => Art.lbPushParent h q parent s2) = .ok s1 →
            Held S s1 := fun s2 h2 e => by
          split at e
          · cases e
          · exact hS.lbPushParent q _ s2 s1 hp h2 e
        unfold lbNoChild at h1
        dsimp only at h1
        split at h1
        · obtain ⟨s2, h2, h1⟩ := R.bind_ok h1
          cases h2
          refine fin _ ?_ h1
          split
          · exact .cons ha hi
          · exact hi
        · obtain ⟨s2, h2, h1⟩ := R.bind_ok h1
          exact fin _ (hS.lbPushChildren q a c 0 true _ st s2 ha hc (Nat.le_refl _) hi h2) h1
      next hne =>
      obtain ⟨pl, -, e⟩ := R.bind_ok e
      split at e
      · obtain ⟨s1, h1, e⟩ := R.bind_ok e
        cases e
        unfold lbTakeAll at h1
        dsimp only at h1
        split at h1
        · obtain ⟨s2, h2, h1⟩ := R.bind_ok h1
          cases h2
          exact hS.lbPushParent q _ _ s1 hp (.cons ha hi) h1
        · obtain ⟨s2, h2, h1⟩ := R.bind_ok h1
          exact hS.lbPushParent q _ s2 s1 hp (hS.lbPushChildren q a c 0 false _ st s2 ha hc (Nat.le_refl _) hi h2) h1
      obtain ⟨s1, h1, e⟩ := R.bind_ok e
      obtain ⟨kb, -, e⟩ := R.bind_ok e
      obtain ⟨ch, hch, e⟩ := R.bind_ok e
      refine ih ch (some a) _ _ s1 ?_ (fun _ h => by cases h; exact ha) (hS.lbPushChildren q a c _ false _ st s1 ha hc (Nat.le_refl _) hi h1) e
      rintro x rfl
      cases c with
      | leaf => cases hch
      | inner nd =>
        refine hS.kid a nd x ha hc (.getChild hch fun hk => ?_)
        have hx' := getLowerBoundCh_lt hx hne hk
        rw [Int.toNat_natCast]
        split
        · omega
        · exact hx'

theorem Fold.lowSeek (it it' : LowIter) (q : Key) (hn : ∀ a, it.node = some a → S a) (e : lowSeek h it q = .ok it') :
    (∀ a, it'.node = some a → S a) ∧ Held S it'.stack := by
  unfold Art.lowSeek at e
  split at e
  · cases e
    exact ⟨hn, fun a ha => hn a (List.mem_singleton.1 ha).symm⟩
  · obtain ⟨r, hr, e⟩ := R.bind_ok e
    cases e
    refine ⟨fun a ha => ?_, hS.lowLoop _ _ _ _ _ _ _ r hn (fun _ h => by cases h) .nil hr⟩
    dsimp only at ha
    split at ha
    · cases ha
    · exact hn a ha

theorem Fold.lowCalls (fuel : Nat) (cs : List LowCall) (it it' : LowIter) (l : List (Option (Key × V))) (hn : ∀ a, it.node = some a → S a)
    (hi : Held S it.stack) (e : lowCalls h fuel it cs = .ok (l, it')) : ∀ kv, some kv ∈ l → PairIn h S kv := by
  induction cs generalizing it l with
  | nil => cases e; intro _ h; cases h
  | cons c cs ih =>
    cases c with
    | seek p =>
      obtain ⟨r, hr, e⟩ := R.bind_ok e
      obtain ⟨g1, g2⟩ := hS.lowSeek it r p hn hr
      exact ih r l g1 g2 e
    | next =>
      obtain ⟨⟨r, st⟩, hr, e⟩ := R.bind_ok e
      obtain ⟨⟨l1, it2⟩, h2, e⟩ := R.bind_ok e
      cases e
      obtain ⟨g2, g3⟩ := hS.lbNext fuel it.stack st r hi hr
      intro kv hkv
      rcases List.mem_cons.1 hkv with hkv | hkv
      · exact g3 kv hkv.symm
      · exact ih { it with stack := st } l1 hn g2 h2 kv hkv

/-! ### Reverse iterators -/

theorem Fold.revNext (path : Key) (ex : List Addr) (fuel : Nat) (st st' : List (Option Addr)) (r : Option (Key × V)) (hi : Held S st)
    (e : revNext h path ex fuel st = .ok (r, st')) : Held S st' ∧ ∀ kv, r = some kv → PairIn h S kv := by
  induction fuel generalizing st with
  | zero => cases e
  | succ n ih =>
    unfold Art.revNext at e
    split at e
    · cases e; exact ⟨.nil, fun _ h => by cases h⟩
    · cases e; exact ⟨hi.tail, fun _ h => by cases h⟩
    · next a rest =>
      have ha := hi a (List.mem_cons_self ..)
      obtain ⟨c, hc, e⟩ := R.bind_ok e
      have hc := rd_ok hc
      cases c with
      | leaf l =>
        dsimp only at e
        split at e
        · cases e; exact ⟨hi.tail, fun _ h => by cases h; exact ⟨a, l, ha, hc, rfl⟩⟩
        · exact ih _ hi.tail e
      | inner nd =>
        obtain ⟨lf, hlf, e⟩ := R.bind_ok e
        have hlf' : ∀ l lc, lf = some (l, lc) → S l ∧ h[l]? = some (.leaf lc) := by
          rintro l lc rfl
          unfold leafOf at hlf
          split at hlf
          · cases hlf
          · next l' hl' =>
            obtain ⟨lc', h1, h2⟩ := R.bind_ok hlf
            cases h2
            exact ⟨hS.leaf a nd l ha hc hl', rdLeaf_ok h1⟩
        have hp : Held S (revLeafPush path lf rest) := by
          unfold revLeafPush
          split
          · split
            · exact .cons (hlf' _ _ rfl).1 hi.tail
            · exact hi.tail
          · exact hi.tail
        have hi' : Held S (nd.revChildren ++ revLeafPush path lf rest) :=
          Held.append (fun b hb => hS.iter ha hc b (List.mem_reverse.1 hb)) hp
        split at e
        · exact ih _ hp e
        · split at e
          · next l lc =>
            split at e
            · cases e
              exact ⟨hi', fun _ h => by cases h; exact ⟨l, lc, (hlf' _ _ rfl).1, (hlf' _ _ rfl).2, rfl⟩⟩
            · exact ih _ hi' e
          · exact ih _ hi' e

/-- The nodes that a reverse iterator has. -/
def RevIter.Held (S : Addr → Prop) (it : RevIter) : Prop := (∀ a, it.node = some a → S a) ∧ ∀ st, it.stack = some st → Art.Held S st

theorem Fold.revPrevious (fuel : Nat) (it it' : RevIter) (r : Option (Key × V)) (hi : it.Held S) (e : revPrevious h fuel it = .ok (r, it')) :
    it'.Held S ∧ ∀ kv, r = some kv → PairIn h S kv := by
  unfold Art.revPrevious at e
  obtain ⟨⟨r1, st⟩, h1, e⟩ := R.bind_ok e
  cases e
  have : Art.Held S (match it.stack, it.node with | some s, _ => s | none, some a => [some a] | none, none => []) := by
    split
    · next hs => exact hi.2 _ hs
    · next ha => exact .cons (hi.1 _ ha) .nil
    · exact .nil
  obtain ⟨g1, g2⟩ := hS.revNext _ _ _ _ _ _ this h1
  exact ⟨⟨hi.1, fun _ h => by cases h; exact g1⟩, g2⟩

theorem Fold.revSeekPrefix (it it' : RevIter) (p : Key) (hi : it.Held S) (e : revSeekPrefix h it p = .ok it') : it'.Held S := by
  unfold Art.revSeekPrefix at e
  split at e
  · cases e
  · next a ha =>
    obtain ⟨b, hb, e⟩ := R.bind_ok e
    cases e
    have := hS.seekLoop p _ a 0 b (hi.1 a ha) hb
    exact ⟨fun _ h => by cases h; exact this, fun _ h => by cases h; exact .cons this .nil⟩

theorem Fold.revPushLeaf {a : Addr} {c : Cell V} (ha : S a) (hc : h[a]? = some c) {st : List (Option Addr)} (hi : Art.Held S st) :
    Art.Held S (revPushLeaf c st) := by
  unfold Art.revPushLeaf
  split
  · next l hl =>
    cases c with
    | leaf => cases hl
    | inner n => exact .cons (hS.leaf a n l ha hc hl) hi
  · exact hi

omit hS in
theorem revPick_lt {n : Inner} {q : Key} {d : Nat} {seen : Bool} {r : Int × Bool} (e : revPick (.inner n : Cell V) q d seen = .ok r)
    (hk : n.kind = .n4 ∨ n.kind = .n16) : r.1 = -1 ∨ r.1.toNat < n.numChildren.toNat := by
  unfold revPick at e
  obtain ⟨b, -, e⟩ := R.bind_ok e
  obtain ⟨i, hx, e⟩ := R.bind_ok e
  dsimp only at e
  have key : ∀ j : Int, j = (if i = -1 ∨ d = q.length - 1 then ((Cell.inner n : Cell V).numChildren.toNat : Int) - 1 else i) →
      j = -1 ∨ j.toNat < n.numChildren.toNat := by
    rintro j rfl
    split
    · show ((n.numChildren.toNat : Int) - 1) = -1 ∨ ((n.numChildren.toNat : Int) - 1).toNat < n.numChildren.toNat
      omega
    · next h1 => exact .inr (getLowerBoundCh_lt hx (fun h2 => h1 (.inl h2)) hk)
  generalize hj : (if i = -1 ∨ d = q.length - 1 then ((Cell.inner n : Cell V).numChildren.toNat : Int) - 1 else i) = j at e key
  have key := key j rfl
  split at e
  · obtain ⟨kb, -, e⟩ := R.bind_ok e
    cases e; exact key
  · cases e; exact key

omit hS in
theorem mem_mapM_kid (c : Cell V) (l : List Nat) (r : List (Option Addr))
    (hr : l.mapM (fun (i : Nat) => c.getChild i) = .ok r) (b : Addr) (hb : some b ∈ r) : ∃ i ∈ l, c.getChild i = .ok (some b) := by
  induction l generalizing r with
  | nil => simp only [List.mapM_nil] at hr; cases hr; cases hb
  | cons i l ih =>
    rw [List.mapM_cons] at hr
    obtain ⟨o, ho, hr⟩ := R.bind_ok hr
    obtain ⟨r', hr', hr⟩ := R.bind_ok hr
    cases hr
    rcases List.mem_cons.1 hb with hb | hb
    · subst hb; exact ⟨i, List.mem_cons_self .., ho⟩
    · obtain ⟨j, h1, h2⟩ := ih r' hr' hb
      exact ⟨j, List.mem_cons_of_mem _ h1, h2⟩

theorem Fold.revLoop (key q extra : Key) (fuel : Nat) (node : Option Addr) (d : Nat) (seen : Bool) (st : List (Option Addr)) (ex : List Addr)
    (r : List (Option Addr) × List Addr) (hn : ∀ a, node = some a → S a) (hi : Art.Held S st)
    (e : revLoop h key q extra fuel node d seen st ex = .ok r) : Art.Held S r.1 := by
  induction fuel generalizing node d seen st ex with
  | zero => cases e
  | succ n ih =>
    unfold Art.revLoop at e
    split at e
    · cases e; exact hi
    next a =>
    have ha := hn a rfl
    obtain ⟨c, hc, e⟩ := R.bind_ok e
    have hc := rd_ok hc
    obtain ⟨cmp, -, e⟩ := R.bind_ok e
    split at e
    · cases e; exact .cons ha hi
    split at e
    · cases e; exact hS.revPushLeaf ha hc hi
    obtain ⟨lk, -, e⟩ := R.bind_ok e
    obtain ⟨dn, -, e⟩ := R.bind_ok e
    split at e
    · cases e; exact .cons ha hi
    obtain ⟨⟨stop, seen', d'⟩, -, e⟩ := R.bind_ok e
    dsimp only at e
    split at e
    · cases e; exact hS.revPushLeaf ha hc hi
    split at e
    · cases e; exact .cons ha hi
    have hi1 : Art.Held S (if c.nodeLeaf.isSome then some a :: st else st) := by
      split
      · exact .cons ha hi
      · exact hi
    generalize (if c.nodeLeaf.isSome then some a :: st else st) = st1 at e hi1
    obtain ⟨⟨idx, seen2⟩, hp, e⟩ := R.bind_ok e
    dsimp only at e
    have hlt : ∀ n, c = .inner n → n.kind = .n4 ∨ n.kind = .n16 → (if seen2 then (c.numChildren.toNat : Int) - 1 else idx) = -1 ∨
        (if seen2 then (c.numChildren.toNat : Int) - 1 else idx).toNat < n.numChildren.toNat := by
      rintro n rfl hk
      split
      · show ((n.numChildren.toNat : Int) - 1) = -1 ∨ ((n.numChildren.toNat : Int) - 1).toNat < n.numChildren.toNat
        omega
      · exact revPick_lt hp hk
    generalize (if seen2 then (c.numChildren.toNat : Int) - 1 else idx) = ix at e hlt
    obtain ⟨chs, hchs, e⟩ := R.bind_ok e
    have kid : ∀ (i : Int) x, i ≤ ix → ix ≠ -1 → c.getChild i = .ok (some x) → S x := fun i x hix hne hg => by
      cases c with
      | leaf => cases hg
      | inner nd =>
        refine hS.kid a nd x ha hc (.getChild hg fun hk => ?_)
        rcases hlt nd rfl hk with h1 | h1 <;> omega
    have hi2 : Art.Held S ((chs.filterMap (fun (o : Option Addr) => o.map some)).reverse ++ st1) := by
      refine Held.append (fun b hb => ?_) hi1
      obtain ⟨o, ho, hb⟩ := List.mem_filterMap.1 (List.mem_reverse.1 hb)
      rw [Option.map_eq_some_iff] at hb
      obtain ⟨x, rfl, hb⟩ := hb
      cases hb
      obtain ⟨i, h1, h2⟩ := mem_mapM_kid c _ chs hchs b ho
      have := List.mem_range.1 h1
      exact kid i b (by omega) (by rintro rfl; simp at this) h2
    split at e
    · cases e; exact hi2
    · next hne =>
      obtain ⟨ch, hch, e⟩ := R.bind_ok e
      refine ih ch _ _ _ _ ?_ hi2 e
      rintro x rfl
      exact kid _ x (Int.le_refl _) hne hch

theorem Fold.seekReverseLowerBound (it it' : RevIter) (q extra : Key) (hi : it.Held S) (e : seekReverseLowerBound h it q extra = .ok it') :
    it'.Held S := by
  unfold Art.seekReverseLowerBound at e
  obtain ⟨⟨st, ex⟩, h1, e⟩ := R.bind_ok e
  cases e
  have := hS.revLoop _ _ _ _ _ _ _ _ _ _ hi.1 .nil h1
  exact And.intro (fun _ h => by cases h) (fun _ h => by cases h; exact this)

theorem Fold.revCalls (fuel : Nat) (cs : List RevCall) (it it' : RevIter) (l : List (Option (Key × V))) (hi : it.Held S)
    (e : revCalls h fuel it cs = .ok (l, it')) : ∀ kv, some kv ∈ l → PairIn h S kv := by
  induction cs generalizing it l with
  | nil => cases e; intro _ h; cases h
  | cons c cs ih =>
    cases c with
    | seekPrefix p =>
      obtain ⟨r, hr, e⟩ := R.bind_ok e
      exact ih r l (hS.revSeekPrefix it r p hi hr) e
    | seekLower q extra =>
      obtain ⟨r, hr, e⟩ := R.bind_ok e
      exact ih r l (hS.seekReverseLowerBound it r q extra hi hr) e
    | previous =>
      obtain ⟨⟨r, it1⟩, hr, e⟩ := R.bind_ok e
      obtain ⟨⟨l1, it2⟩, h2, e⟩ := R.bind_ok e
      cases e
      obtain ⟨g2, g3⟩ := hS.revPrevious fuel it it1 r hi hr
      intro kv hkv
      rcases List.mem_cons.1 hkv with hkv | hkv
      · exact g3 kv hkv.symm
      · exact ih it1 l1 g2 h2 kv hkv

end

/-! ### The nodes of a tree -/

section
variable [Removals] {es : Edges} {st : Option Addr} {n : Inner}

theorem Layout.kid (hL : Layout n es st) {c : Addr} (hc : n.Kid c) : ∃ b, (b, c) ∈ es := by
  have hnum := hL.num
  obtain ⟨i, hi, hlt⟩ := hc
  have arr : n.kind = .n4 ∨ n.kind = .n16 → ∃ b, (b, c) ∈ es := fun hk => by
    have h1 : some c ∈ n.iterChildren := by
      unfold Inner.iterChildren
      have : some c ∈ n.children.take n.numChildren.toNat := by
        rw [List.mem_iff_getElem?]
        exact ⟨i, by rw [List.getElem?_take_of_lt (hlt hk), hi]⟩
      rcases hk with hk | hk <;> rw [hk] <;> exact this
    rw [hL.iterChildren] at h1
    obtain ⟨⟨b, c'⟩, h2, h3⟩ := List.mem_map.1 h1
    cases h3
    exact ⟨b, h2⟩
  rcases hL.kinds with ⟨hk, ha⟩ | ⟨hk, ha⟩ | ⟨hk, ha, -⟩ | ⟨hk, ha, -⟩
  · exact arr (.inl hk)
  · exact arr (.inr hk)
  · obtain ⟨b, hb, -⟩ := ha.slot i c hi
    exact ⟨b, hb⟩
  · have hlt' : i < 256 := by rw [← ha.1]; exact (List.getElem?_eq_some_iff.1 hi).1
    refine ⟨UInt8.ofNat i, (ha.2 _ c).1 ?_⟩
    rw [toNat_ofNat hlt']; exact hi

theorem Rep.head {p : Key} {a : Addr} {E : List (Ent V)} {N : List (Key × Addr)} (hr : Rep h p a E N) : Occ E N a := by
  cases hr <;> exact .head

/-- The nodes and leaves of a tree: iterators stay among them, and the leaves have its entries. -/
theorem Rep.inside {p : Key} {a : Addr} {E : List (Ent V)} {N : List (Key × Addr)} (hr : Rep h p a E N) :
    ∀ x, Occ E N x → (∀ n, h[x]? = some (.inner n) → (∀ l, n.leaf = some l → Occ E N l) ∧ ∀ c, n.Kid c → Occ E N c) ∧
      ∀ lc, h[x]? = some (.leaf lc) → (lc.key, lc.value, x) ∈ E := by
  induction hr with
  | @leaf p a n l lc ha hL hpart hw hleaf hl hp hd =>
    intro x hx
    have hx : x = a ∨ x = l := by
      rcases hx with hx | hx
      · exact .inl (by simpa using hx)
      · exact .inr (by simpa using hx)
    rcases hx with rfl | rfl
    · refine ⟨fun n' hn' => ?_, fun lc' hlc' => by rw [ha] at hlc'; cases hlc'⟩
      rw [ha] at hn'; cases hn'
      refine ⟨fun l' hl' => ?_, fun c hc => ?_⟩
      · rw [hleaf] at hl'; cases hl'; exact .inr (by simp)
      · obtain ⟨b, hb⟩ := hL.kid hc; cases hb
    · refine ⟨fun n' hn' => (by rw [hl] at hn'; cases hn'), fun lc' hlc' => ?_⟩
      rw [hl] at hlc'; cases hlc'
      exact List.mem_singleton.2 rfl
  | @node p a n pfx es st vals f g ha hL hne hh hst hown hnd htw hch ih =>
    intro x hx
    rcases hx.inv with rfl | hx | ⟨b, c, hb, hx⟩
    · refine ⟨fun n' hn' => ?_, fun lc' hlc' => by rw [ha] at hlc'; cases hlc'⟩
      rw [ha] at hn'; cases hn'
      refine ⟨fun l' hl' => ?_, fun c hc => ?_⟩
      · rcases hown.inv with ⟨h1, -⟩ | ⟨l, lc, h1, h2, -⟩
        · rw [h1] at hl'; cases hl'
        · rw [h1] at hl'; cases hl'
          exact Occ.val (e := (lc.key, lc.value, l')) (by rw [h2]; simp)
      · obtain ⟨b, hb⟩ := hL.kid hc
        exact .kid hb (hch b c hb).head
    · obtain ⟨e, he, rfl⟩ := List.mem_map.1 hx
      rcases hown.inv with ⟨-, h1⟩ | ⟨l, lc, h1, h2, h3, -⟩
      · rw [h1] at he; cases he
      · have he' := he
        rw [h2] at he'
        cases List.mem_singleton.1 he'
        refine ⟨fun n' hn' => (by rw [h3] at hn'; cases hn'), fun lc' hlc' => ?_⟩
        rw [h3] at hlc'; cases hlc'
        exact List.mem_append_left _ he
    · obtain ⟨g1, g2⟩ := ih b c hb x hx
      refine ⟨fun n' hn' => ⟨fun l hl => .kid hb ((g1 n' hn').1 l hl), fun c' hc' => .kid hb ((g1 n' hn').2 c' hc')⟩, fun lc hlc => ?_⟩
      exact List.mem_append_right _ (List.mem_flatMap.2 ⟨_, hb, g2 lc hlc⟩)

theorem Rep.fold {p : Key} {a : Addr} {E : List (Ent V)} {N : List (Key × Addr)} (hr : Rep h p a E N) : Fold h (Occ E N) where
  leaf := fun x n l hx hc hl => ((hr.inside x hx).1 n hc).1 l hl
  kid := fun x n c hx hc hk => ((hr.inside x hx).1 n hc).2 c hk

/-- What iterators can return of a tree: its pairs, and of an empty tree the empty key. -/
theorem ViewOf.pairs' {ex : Bool} {a : Addr} {sz : UInt64} {full : Bool} {m : Map V} (hv : ViewOf ex h a sz full m) :
    ∃ S, S a ∧ Fold h S ∧ (∀ kv, PairIn h S kv → kv ∈ m ∨ (m = [] ∧ kv.1 = [])) ∧
      ∀ (x : Addr) (lc : LeafC V), S x → h[x]? = some (.leaf lc) → lc.key = [] ∨ ∃ k, lc.key = k ++ [dollar] := by
  obtain ⟨E, N, hr, habs⟩ := hv.rep
  cases hr with
  | empty hp =>
    obtain ⟨n, l, lc, h1, h2, h3, h4, h5, -⟩ := hp
    refine ⟨fun x => x = a ∨ x = l, .inl rfl, ⟨?_, ?_⟩, ?_, ?_⟩
    · rintro x n' l' (rfl | rfl) hc hl
      · rw [h1] at hc; cases hc; rw [h3] at hl; cases hl; exact .inr rfl
      · rw [h4] at hc; cases hc
    · rintro x n' l' (rfl | rfl) hc hk
      · rw [h1] at hc; cases hc; obtain ⟨b, hb⟩ := h2.kid hk; cases hb
      · rw [h4] at hc; cases hc
    · rintro kv ⟨x, lc', rfl | rfl, hc, rfl⟩
      · rw [h1] at hc; cases hc
      · rw [h4] at hc; cases hc
        refine .inr ⟨?_, by rw [h5]; rfl⟩
        cases m with
        | nil => rfl
        | cons e m =>
          obtain ⟨x, hx⟩ := (habs e.1 e.2).1 (List.mem_cons_self ..)
          cases hx
    · rintro x lc' (rfl | rfl) hc
      · rw [h1] at hc; cases hc
      · rw [h4] at hc; cases hc; exact .inl h5
  | tree hr =>
    refine ⟨_, hr.head, hr.fold, ?_, fun x lc hx hc => .inr (hr.dollar _ ((hr.inside x hx).2 lc hc))⟩
    rintro kv ⟨x, lc, hx, hc, rfl⟩
    have h1 := (hr.inside x hx).2 lc hc
    obtain ⟨k, hk⟩ := hr.dollar _ h1
    left
    rw [show getKey lc.key = k by rw [show lc.key = k ++ [dollar] from hk]; exact getKey_snoc _ _]
    exact (habs k lc.value).2 ⟨x, by rw [← show lc.key = k ++ [dollar] from hk]; exact h1⟩

theorem ViewOf.pairs {ex : Bool} {a : Addr} {sz : UInt64} {full : Bool} {m : Map V} (hv : ViewOf ex h a sz full m) :
    ∃ S, S a ∧ Fold h S ∧ ∀ kv, PairIn h S kv → kv ∈ m ∨ (m = [] ∧ kv.1 = []) := by
  obtain ⟨S, h1, h2, h3, -⟩ := hv.pairs'
  exact ⟨S, h1, h2, h3⟩

end

end Art
