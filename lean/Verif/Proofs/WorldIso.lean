import Verif.Proofs.WorldAll
import Verif.Proofs.Congr3
/-
Isolation at the level of programs: each tree and each transaction has its set of nodes; a call changes only
nodes that one open transaction owns, and those belong to nothing else.
-/
set_option autoImplicit false
set_option linter.unusedVariables false
set_option linter.unusedSimpArgs false
set_option linter.unusedSectionVars false
namespace Art
variable {V : Type}

/-- A tree (`inl`) or a transaction (`inr`), by number. -/
abbrev ViewId := Nat ⊕ Nat

/-- `S` contains the root, is closed under pointers, and its node ids are at most `max`. -/
structure Region (h : Heap V) (S : Addr → Prop) (p : Addr × Nat) : Prop where
  root : S p.1
  cell : ∀ a, S a → ∃ c, h[a]? = some c ∧ c.id ≤ p.2 ∧ ∀ b, c.Pts b → S b

/-- The nodes that exist in `h` are the same in `h'`, apart from the channels. -/
def AgreeAll (h h' : Heap V) : Prop := Agree (fun a => a < h.length) h h'

section
variable {h h' h'' : Heap V} {S : Addr → Prop}

theorem Region.closed {p : Addr × Nat} (hr : Region h S p) : Closed h S := fun a ha => by
  obtain ⟨c, h1, -, h2⟩ := hr.cell a ha
  exact ⟨c, h1, h2⟩

theorem Region.lt {p : Addr × Nat} (hr : Region h S p) {a : Addr} (ha : S a) : a < h.length := by
  obtain ⟨c, h1, -⟩ := hr.cell a ha
  exact (List.getElem?_eq_some_iff.1 h1).1

theorem Agree.cell (hag : Agree S h h') {a : Addr} (ha : S a) {c : Cell V} (hc : h[a]? = some c) :
    ∃ k, h'[a]? = some (c.setCh k) := by
  have := hag a ha
  rw [hc] at this
  cases h3 : h'[a]? with
  | none => rw [h3] at this; cases this
  | some c' =>
    rw [h3] at this
    obtain ⟨k, rfl⟩ := Cell.setCh_eq (Option.some.inj this)
    exact ⟨k, rfl⟩

theorem Agree.cell' (hag : Agree S h h') {a : Addr} (ha : S a) {c' : Cell V} (hc : h'[a]? = some c') :
    ∃ c k, h[a]? = some c ∧ c' = c.setCh k := by
  have := hag a ha
  rw [hc] at this
  cases h3 : h[a]? with
  | none => rw [h3] at this; cases this
  | some c =>
    rw [h3] at this
    obtain ⟨k, rfl⟩ := Cell.setCh_eq (Option.some.inj this)
    exact ⟨c, k, rfl, rfl⟩

theorem Region.agree {p : Addr × Nat} (hr : Region h S p) (hag : Agree S h h') : Region h' S p :=
  ⟨hr.root, fun a ha => by
    obtain ⟨c, h1, h2, h3⟩ := hr.cell a ha
    obtain ⟨k, hk⟩ := hag.cell ha h1
    exact ⟨_, hk, by rw [Cell.id_setCh]; exact h2, fun b hb => h3 b ((c.pts_setCh k b).1 hb)⟩⟩

theorem AgreeAll.refl (h : Heap V) : AgreeAll h h := Agree.refl _ h

theorem AgreeAll.len (ha : AgreeAll h h') : h.length ≤ h'.length := by
  rcases Nat.lt_or_ge h'.length h.length with hlt | hge
  · have := ha h'.length hlt
    rw [List.getElem?_eq_none (Nat.le_refl _), List.getElem?_eq_getElem hlt] at this
    cases this
  · exact hge

theorem AgreeAll.trans (h1 : AgreeAll h h') (h2 : AgreeAll h' h'') : AgreeAll h h'' := fun a ha =>
  (h2 a (Nat.lt_of_lt_of_le ha h1.len)).trans (h1 a ha)

theorem AgreeAll.on {p : Addr × Nat} (ha : AgreeAll h h') (hr : Region h S p) : Agree S h h' :=
  fun a hs => ha a (hr.lt hs)

theorem AgreeAll.append (h : Heap V) (l : List (Cell V)) : AgreeAll h (h ++ l) := fun a ha => by
  rw [List.getElem?_append_left ha]

theorem AgreeAll.setCh {a : Addr} {c : Cell V} (hc : h[a]? = some c) (k : Option ChanId) : AgreeAll h (h.set a (c.setCh k)) :=
  fun b hb => by
    by_cases hab : a = b
    · subst hab
      rw [hc]
      simp [List.getElem?_set, show a < h.length from hb, Cell.setCh_setCh]
    · simp [List.getElem?_set, hab]
end

/-! ### The invariant -/

/-- The invariant, over an abstract view of the program: `view` gives root and largest id of each tree and
transaction, `live` the `oldMaxNodeId` of each open transaction. -/
structure INV (h : Heap V) (view : ViewId → Option (Addr × Nat)) (live : Nat → Option Nat)
    (S : ViewId → Addr → Prop) (O : Nat → Addr → Prop) : Prop where
  region : ∀ v p, view v = some p → Region h (S v) p
  viewed : ∀ x m, live x = some m → ∃ p, view (.inr x) = some p
  own : ∀ x m, live x = some m → ∀ a c, S (.inr x) a → h[a]? = some c → m < c.id → O x a
  sub : ∀ x m, live x = some m → ∀ a, O x a → S (.inr x) a
  disj : ∀ x m, live x = some m → ∀ v p, view v = some p → v ≠ .inr x → ∀ a, O x a → ¬ S v a

/-- A function changed at one point. -/
def upd {α β : Type} [DecidableEq α] (f : α → β) (a : α) (b : β) : α → β := fun x => if x = a then b else f x

section
variable {α β : Type} [DecidableEq α]
theorem upd_self (f : α → β) (a : α) (b : β) : upd f a b a = b := by simp [upd]
theorem upd_ne (f : α → β) {a x : α} (b : β) (hx : x ≠ a) : upd f a b x = f x := by simp [upd, hx]
end

section
variable {h h' : Heap V} {view : ViewId → Option (Addr × Nat)} {live : Nat → Option Nat}
  {S : ViewId → Addr → Prop} {O : Nat → Addr → Prop}

theorem INV.quiet (hi : INV h view live S O) (ha : AgreeAll h h') : INV h' view live S O where
  region := fun v p hv => (hi.region v p hv).agree (ha.on (hi.region v p hv))
  viewed := hi.viewed
  own := fun x m hx a c hs hc hid => by
    obtain ⟨p, hp⟩ := hi.viewed x m hx
    obtain ⟨c0, k, h1, rfl⟩ := (ha.on (hi.region _ p hp)).cell' hs hc
    rw [Cell.id_setCh] at hid
    exact hi.own x m hx a c0 hs h1 hid
  sub := hi.sub
  disj := hi.disj

theorem INV.dropLive (hi : INV h view live S O) {live' : Nat → Option Nat}
    (hl : ∀ x m, live' x = some m → live x = some m) : INV h view live' S O where
  region := hi.region
  viewed := fun x m hx => hi.viewed x m (hl x m hx)
  own := fun x m hx => hi.own x m (hl x m hx)
  sub := fun x m hx => hi.sub x m (hl x m hx)
  disj := fun x m hx => hi.disj x m (hl x m hx)

/-- A transaction whose node ids are all old owns nothing. -/
theorem INV.disown (hi : INV h view live S O) {x : Nat} {p : Addr × Nat} (hv : view (.inr x) = some p) (hm : ∀ m, live x = some m → p.2 ≤ m) :
    INV h view live S (upd O x fun _ => False) := by
  refine ⟨hi.region, hi.viewed, fun y m' hy a c hs hc hid => ?_, fun y m' hy a ho => ?_, fun y m' hy v' p' hv' hv'' a ho => ?_⟩
  · by_cases he : y = x
    · subst he
      obtain ⟨c', h1, h2, -⟩ := (hi.region _ p hv).cell a hs
      rw [hc] at h1; cases h1
      have := hm m' hy
      omega
    · rw [upd_ne _ _ he]; exact hi.own y m' hy a c hs hc hid
  · by_cases he : y = x
    · subst he; rw [upd_self] at ho; exact ho.elim
    · rw [upd_ne _ _ he] at ho; exact hi.sub y m' hy a ho
  · by_cases he : y = x
    · subst he; rw [upd_self] at ho; exact ho.elim
    · rw [upd_ne _ _ he] at ho; exact hi.disj y m' hy v' p' hv' hv'' a ho

theorem INV.addView (hi : INV h view live S O) {v : ViewId} {p : Addr × Nat} {S0 : Addr → Prop} (hv : view v = none)
    (hr : Region h S0 p) (hd : ∀ x m, live x = some m → ∀ a, O x a → ¬ S0 a) :
    INV h (upd view v (some p)) live (upd S v S0) O := by
  have hne : ∀ x m, live x = some m → (.inr x : ViewId) ≠ v := fun x m hx he => by
    obtain ⟨q, hq⟩ := hi.viewed x m hx
    rw [he, hv] at hq; cases hq
  refine ⟨fun v' p' hv' => ?_, fun x m hx => ?_, fun x m hx a c hs => ?_, fun x m hx a ho => ?_,
    fun x m hx v' p' hv' hv'' a ho => ?_⟩
  · by_cases he : v' = v
    · subst he
      rw [upd_self] at hv' ⊢
      cases hv'; exact hr
    · rw [upd_ne _ _ he] at hv' ⊢
      exact hi.region v' p' hv'
  · rw [upd_ne _ _ (hne x m hx)]; exact hi.viewed x m hx
  · rw [upd_ne _ _ (hne x m hx)] at hs; exact hi.own x m hx a c hs
  · rw [upd_ne _ _ (hne x m hx)]; exact hi.sub x m hx a ho
  · by_cases he : v' = v
    · subst he
      rw [upd_self]
      exact hd x m hx a ho
    · rw [upd_ne _ _ he] at hv' ⊢
      exact hi.disj x m hx v' p' hv' hv'' a ho

theorem INV.addLive (hi : INV h view live S O) {x m : Nat} {p : Addr × Nat} (hx : live x = none)
    (hv : view (.inr x) = some p) (hm : p.2 ≤ m) : INV h view (upd live x (some m)) S (upd O x fun _ => False) := by
  refine ⟨hi.region, fun y m' hy => ?_, fun y m' hy a c hs hc hid => ?_, fun y m' hy a ho => ?_,
    fun y m' hy v' p' hv' hv'' a ho => ?_⟩
  · by_cases he : y = x
    · subst he; exact ⟨p, hv⟩
    · rw [upd_ne _ _ he] at hy; exact hi.viewed y m' hy
  · by_cases he : y = x
    · subst he
      rw [upd_self] at hy; cases hy
      obtain ⟨c', h1, h2, -⟩ := (hi.region _ p hv).cell a hs
      rw [hc] at h1; cases h1
      omega
    · rw [upd_ne _ _ he] at hy ⊢; exact hi.own y m' hy a c hs hc hid
  · by_cases he : y = x
    · subst he; rw [upd_self] at ho; exact ho.elim
    · rw [upd_ne _ _ he] at hy ho; exact hi.sub y m' hy a ho
  · by_cases he : y = x
    · subst he; rw [upd_self] at ho; exact ho.elim
    · rw [upd_ne _ _ he] at hy ho; exact hi.disj y m' hy v' p' hv' hv'' a ho

/-- The context of a write by transaction `x`. -/
def isoCx (h : Heap V) (S O : Addr → Prop) (m : Nat) : Cx V := ⟨h, S, O, m, True, fun _ _ => True⟩

theorem INV.toJ (hi : INV h view live S O) {x : Nat} {s : St V} (hh : s.heap = h)
    (hx : live x = some s.txn.oldMaxNodeId) (hv : view (.inr x) = some (s.txn.root, s.txn.maxNodeId)) :
    J (isoCx h (S (.inr x)) (O x) s.txn.oldMaxNodeId) s ∧
    (isoCx h (S (.inr x)) (O x) s.txn.oldMaxNodeId).Good s s.txn.root := by
  subst hh
  have hr := hi.region _ _ hv
  refine ⟨⟨Nat.le_refl _, fun a c hc hacc => ?_, fun a _ _ => rfl, rfl⟩, .inl hr.root, hr.lt hr.root⟩
  have hlt := (List.getElem?_eq_some_iff.1 hc).1
  have hs : S (.inr x) a := hacc.resolve_right (by show ¬ s.heap.length ≤ a; omega)
  obtain ⟨c', h1, h2, h3⟩ := hr.cell a hs
  rw [hc] at h1; cases h1
  exact ⟨⟨fun b hb => ⟨.inl (h3 b hb), hr.lt (h3 b hb)⟩, fun _ => h2, fun _ _ => trivial⟩,
    fun hid => .inl (hi.own x _ hx a c hs hc hid)⟩

theorem INV.write (hi : INV h view live S O) {x m : Nat} {p : Addr × Nat} (hx : live x = some m)
    (hv : view (.inr x) = some p) {s : St V} (hj : J (isoCx h (S (.inr x)) (O x) m) s)
    (hg : (isoCx h (S (.inr x)) (O x) m).Good s s.txn.root) :
    INV s.heap (upd view (.inr x) (some (s.txn.root, s.txn.maxNodeId))) live
      (upd S (.inr x) fun a => (S (.inr x) a ∨ h.length ≤ a) ∧ a < s.heap.length)
      (upd O x fun a => (O x a ∨ h.length ≤ a) ∧ a < s.heap.length) ∧
    ∀ v p, view v = some p → v ≠ .inr x → Agree (S v) h s.heap := by
  have hag : ∀ v p, view v = some p → v ≠ .inr x → Agree (S v) h s.heap := fun v q hq hne a ha =>
    hj.frame a ((hi.region v q hq).lt ha) fun ho => by
      rcases ho with ho | ho
      · exact hi.disj x m hx v q hq hne a ho ha
      · exact absurd ((hi.region v q hq).lt ha) (Nat.not_lt.2 ho)
  have hlen : h.length ≤ s.heap.length := hj.len
  refine ⟨⟨fun v q hq => ?_, fun y m' hy => ?_, fun y m' hy a c hs hc hid => ?_, fun y m' hy a ho => ?_,
    fun y m' hy v q hq hne a ho hs => ?_⟩, hag⟩
  · by_cases he : v = .inr x
    · subst he
      rw [upd_self] at hq ⊢; cases hq
      refine ⟨hg, fun a ha => ?_⟩
      have hlt := ha.2
      obtain ⟨h1, -⟩ := hj.cells a _ (List.getElem?_eq_getElem hlt) ha.1
      exact ⟨_, List.getElem?_eq_getElem hlt, h1.id_le trivial, fun b hb => h1.pts b hb⟩
    · rw [upd_ne _ _ he] at hq ⊢
      exact (hi.region v q hq).agree (hag v q hq he)
  · by_cases he : y = x
    · subst he; exact ⟨_, upd_self _ _ _⟩
    · rw [upd_ne _ _ (by intro h; cases h; exact he rfl)]; exact hi.viewed y m' hy
  · by_cases he : y = x
    · subst he
      rw [hx] at hy; cases hy
      rw [upd_self] at hs ⊢
      obtain ⟨-, h2⟩ := hj.cells a c hc hs.1
      exact ⟨h2 hid, hs.2⟩
    · have hne : (.inr y : ViewId) ≠ .inr x := by intro h; cases h; exact he rfl
      rw [upd_ne _ _ hne] at hs
      rw [upd_ne _ _ he]
      obtain ⟨q, hq⟩ := hi.viewed y m' hy
      obtain ⟨c0, k, h1, rfl⟩ := (hag _ q hq hne).cell' hs hc
      rw [Cell.id_setCh] at hid
      exact hi.own y m' hy a c0 hs h1 hid
  · by_cases he : y = x
    · subst he
      rw [upd_self] at ho ⊢
      exact ⟨ho.1.imp (hi.sub y m hx a) (fun h => h), ho.2⟩
    · have hne : (.inr y : ViewId) ≠ .inr x := by intro h; cases h; exact he rfl
      rw [upd_ne _ _ hne]
      rw [upd_ne _ _ he] at ho
      exact hi.sub y m' hy a ho
  · by_cases he : y = x
    · subst he
      rw [upd_ne _ _ hne] at hq hs
      rw [upd_self] at ho
      rcases ho.1 with ho | ho
      · exact hi.disj y m hx v q hq hne a ho hs
      · exact absurd ((hi.region v q hq).lt hs) (Nat.not_lt.2 ho)
    · rw [upd_ne _ _ he] at ho
      by_cases hvx : v = .inr x
      · subst hvx
        rw [upd_self] at hs
        have hney : (.inr y : ViewId) ≠ .inr x := fun h => he (by cases h; rfl)
        obtain ⟨q', hq'⟩ := hi.viewed y m' hy
        rcases hs.1 with hs | hs
        · exact hi.disj y m' hy _ p hv (fun h => hney h.symm) a ho hs
        · exact absurd ((hi.region _ q' hq').lt (hi.sub y m' hy a ho)) (Nat.not_lt.2 hs)
      · rw [upd_ne _ _ hvx] at hq hs
        exact hi.disj y m' hy v q hq hne a ho hs
end

/-! ### Programs -/

/-- Root and largest node id of a tree or transaction. -/
def World.view (w : World V) : ViewId → Option (Addr × Nat)
  | .inl i => (w.trees[i]?).map fun t => (t.root, t.maxNodeId)
  | .inr x => (w.txns[x]?).map fun r => (r.st.root, r.st.maxNodeId)

/-- `oldMaxNodeId`, if the transaction was neither committed nor copied. -/
def TxnRec.live (r : TxnRec) : Option Nat := if r.ended || r.copied then none else some r.st.oldMaxNodeId

/-- The open transactions. -/
def World.live (w : World V) (x : Nat) : Option Nat := (w.txns[x]?).bind TxnRec.live

theorem getElem?_snoc {α : Type} (l : List α) (a : α) (i : Nat) :
    (l ++ [a])[i]? = if i = l.length then some a else l[i]? := by
  by_cases hi : i = l.length
  · subst hi; simp
  · rw [if_neg hi]
    rcases Nat.lt_or_ge i l.length with h | h
    · rw [List.getElem?_append_left h]
    · rw [List.getElem?_eq_none (by simp; omega), List.getElem?_eq_none h]

theorem getElem?_set_some {α : Type} {l : List α} {x : Nat} {r : α} (hx : l[x]? = some r) (r' : α) (y : Nat) :
    (l.set x r')[y]? = if y = x then some r' else l[y]? := by
  have hlt := (List.getElem?_eq_some_iff.1 hx).1
  by_cases hy : y = x
  · subst hy; simp [List.getElem?_set, hlt]
  · simp [List.getElem?_set, hy, fun h => hy (Eq.symm h), Ne.symm hy]

/-- The same trees, and possibly some more. -/
structure Kept (w w' : World V) (S S' : ViewId → Addr → Prop) (skip : Option Nat) : Prop where
  len : w.heap.length ≤ w'.heap.length
  keep : ∀ v p, w.view v = some p → (∀ x, skip = some x → v ≠ .inr x) →
    w'.view v = some p ∧ S' v = S v ∧ Agree (S v) w.heap w'.heap

/-- The invariant holds after a call, and everything else kept its nodes. -/
def IsoRes (w w' : World V) (S : ViewId → Addr → Prop) (skip : Option Nat) : Prop :=
  ∃ S' O', INV w'.heap w'.view w'.live S' O' ∧ Kept w w' S S' skip

section
variable {w w' : World V} {S : ViewId → Addr → Prop} {O : Nat → Addr → Prop} {α : Type}

theorem IsoRes.quiet (hi : INV w.heap w.view w.live S O) (skip : Option Nat) (hv : w'.view = w.view)
    (hl : ∀ x m, w'.live x = some m → w.live x = some m) (ha : AgreeAll w.heap w'.heap) : IsoRes w w' S skip :=
  ⟨S, O, hv ▸ ((hi.quiet ha).dropLive hl), ha.len, fun v p hp _ => ⟨by rw [hv]; exact hp, rfl, ha.on (hi.region v p hp)⟩⟩

theorem IsoRes.addView (hi : INV w.heap w.view w.live S O) (skip : Option Nat) {v : ViewId} {p : Addr × Nat}
    {S0 : Addr → Prop} (hnone : w.view v = none) (hv : w'.view = upd w.view v (some p))
    (hl : ∀ x m, w'.live x = some m → w.live x = some m) (ha : AgreeAll w.heap w'.heap)
    (hr : Region w'.heap S0 p) (hd : ∀ x m, w'.live x = some m → ∀ a, O x a → ¬ S0 a) : IsoRes w w' S skip := by
  refine ⟨upd S v S0, O, hv ▸ (((hi.quiet ha).dropLive hl).addView hnone hr hd), ha.len, fun v' p' hp _ => ?_⟩
  have hne : v' ≠ v := fun h => by rw [h, hnone] at hp; cases hp
  exact ⟨by rw [hv, upd_ne _ _ hne]; exact hp, upd_ne _ _ hne, ha.on (hi.region v' p' hp)⟩

/-- A set whose old nodes belong to view `v` meets no nodes owned by an open transaction other than `v`. -/
theorem INV.apart (hi : INV w.heap w.view w.live S O) {v : ViewId} {p : Addr × Nat} (hv : w.view v = some p)
    {S0 : Addr → Prop} (h0 : ∀ a, S0 a → a < w.heap.length → S v a) {x m : Nat} (hx : w.live x = some m)
    (hne : v ≠ .inr x) (a : Addr) (ho : O x a) : ¬ S0 a := fun hs => by
  obtain ⟨q, hq⟩ := hi.viewed x m hx
  exact hi.disj x m hx v p hv hne a ho (h0 a hs ((hi.region _ q hq).lt (hi.sub x m hx a ho)))

theorem view_addTree (w : World V) (s : St V) (nt : Tree) :
    World.view { w.put s with trees := w.trees ++ [nt] } = upd w.view (.inl w.trees.length) (some (nt.root, nt.maxNodeId)) := by
  funext v
  cases v with
  | inr x => rw [upd_ne _ _ (by intro h; cases h)]; rfl
  | inl i =>
    show (((w.trees ++ [nt])[i]?).map fun t => (t.root, t.maxNodeId)) = _
    rw [getElem?_snoc]
    by_cases hi : i = w.trees.length
    · subst hi; rw [upd_self, if_pos rfl]; rfl
    · rw [upd_ne _ _ (by intro h; cases h; exact hi rfl), if_neg hi]; rfl

theorem view_newTree (w : World V) : w.view (.inl w.trees.length) = none := by
  show (w.trees[w.trees.length]?).map _ = none
  rw [List.getElem?_eq_none (Nat.le_refl _)]; rfl

theorem view_newTxn (w : World V) : w.view (.inr w.txns.length) = none := by
  show (w.txns[w.txns.length]?).map _ = none
  rw [List.getElem?_eq_none (Nat.le_refl _)]; rfl

theorem live_newTxn (w : World V) : w.live w.txns.length = none := by
  show (w.txns[w.txns.length]?).bind _ = none
  rw [List.getElem?_eq_none (Nat.le_refl _)]; rfl

theorem IsoRes.onTree (hi : INV w.heap w.view w.live S O) {t : Nat} {f : Tree → M V α} {out : α → Out V × List Tree}
    (skip : Option Nat)
    (hf : ∀ tr, w.trees[t]? = some tr → AgreeAll w.heap (f tr (w.st default)).2.heap ∧
      ∀ a, (f tr (w.st default)).1 = .ok a → (out a).2 = [] ∨ ∃ nt S0, (out a).2 = [nt] ∧
        Region (f tr (w.st default)).2.heap S0 (nt.root, nt.maxNodeId) ∧ ∀ a, S0 a → a < w.heap.length → S (.inl t) a) :
    IsoRes w (w.onTree t f out).2 S skip := by
  unfold World.onTree
  cases ht : w.trees[t]? with
  | none => exact .quiet hi skip rfl (fun _ _ h => h) (.refl _)
  | some tr =>
    obtain ⟨h1, h2⟩ := hf tr ht
    simp only
    match hr : f tr (w.st default) with
    | (.error e, s) =>
      rw [hr] at h1
      exact .quiet hi skip rfl (fun _ _ h => h) h1
    | (.ok a, s) =>
      rw [hr] at h1 h2
      rcases h2 a rfl with h3 | ⟨nt, S0, h3, h4, h5⟩
      · simp only [h3, List.append_nil]
        exact .quiet hi skip rfl (fun _ _ h => h) h1
      · simp only [h3]
        have hv : w.view (.inl t) = some (tr.root, tr.maxNodeId) := by
          show (w.trees[t]?).map _ = _
          rw [ht]; rfl
        exact .addView hi skip (view_newTree w) (view_addTree w s nt) (fun _ _ h => h) h1 h4
          fun x m hx a ho => hi.apart hv h5 hx (by intro h; cases h) a ho

theorem view_set {x : Nat} {r : TxnRec} (hx : w.txns[x]? = some r) (s : St V) (ts : List Tree) (r' : TxnRec)
    (hr : r'.st.root = r.st.root ∧ r'.st.maxNodeId = r.st.maxNodeId) :
    World.view { w.put s with trees := w.trees ++ ts, txns := w.txns.set x r' } =
    World.view { w.put s with trees := w.trees ++ ts } := by
  funext v
  cases v with
  | inl i => rfl
  | inr y =>
    show ((w.txns.set x r')[y]?).map _ = (w.txns[y]?).map _
    rw [getElem?_set_some hx]
    by_cases hy : y = x
    · subst hy; rw [if_pos rfl, hx]; simp [hr.1, hr.2]
    · rw [if_neg hy]

theorem live_set {x : Nat} {r : TxnRec} (hx : w.txns[x]? = some r) (s : St V) (ts : List Tree) (r' : TxnRec) (y : Nat) :
    World.live { w.put s with trees := w.trees ++ ts, txns := w.txns.set x r' } y =
      if y = x then r'.live else w.live y := by
  show ((w.txns.set x r')[y]?).bind _ = _
  rw [getElem?_set_some hx]
  by_cases hy : y = x
  · rw [if_pos hy, if_pos hy]; rfl
  · rw [if_neg hy, if_neg hy]; rfl

theorem view_txn {x : Nat} {r : TxnRec} (hx : w.txns[x]? = some r) : w.view (.inr x) = some (r.st.root, r.st.maxNodeId) := by
  show (w.txns[x]?).map _ = _
  rw [hx]; rfl

theorem live_txn {x : Nat} {r : TxnRec} (hx : w.txns[x]? = some r) : w.live x = r.live := by
  show (w.txns[x]?).bind _ = _
  rw [hx]; rfl

/-- A call of a transaction that changes nothing but channels (and may end the transaction, returning its tree). -/
theorem IsoRes.onTxn (hi : INV w.heap w.view w.live S O) {x : Nat} {f : M V α} {out : α → Out V × List Tree}
    {mark : TxnRec → TxnRec} (skip : Option Nat) (hm : ∀ r, (mark r).st = r.st)
    (hm2 : ∀ r m, (mark r).live = some m → r.live = some m)
    (hf : ∀ r, w.txns[x]? = some r → AgreeAll w.heap (f (w.st r.st)).2.heap ∧
      (f (w.st r.st)).2.txn.root = r.st.root ∧ (f (w.st r.st)).2.txn.maxNodeId = r.st.maxNodeId ∧
      (f (w.st r.st)).2.txn.oldMaxNodeId = r.st.oldMaxNodeId ∧
      ∀ a, (f (w.st r.st)).1 = .ok a → (out a).2 = [] ∨
        (∃ nt, (out a).2 = [nt] ∧ nt.root = r.st.root ∧ nt.maxNodeId = r.st.maxNodeId) ∧ ∀ r, (mark r).live = none) :
    IsoRes w (w.onTxn x f out mark).2 S skip := by
  unfold World.onTxn
  cases ht : w.txns[x]? with
  | none => exact .quiet hi skip rfl (fun _ _ h => h) (.refl _)
  | some r =>
    obtain ⟨h1, h2, h3, h4, h5⟩ := hf r ht
    simp only
    have hlive : ∀ (s : St V) (ts : List Tree), s.txn.oldMaxNodeId = r.st.oldMaxNodeId → ∀ y m,
        World.live { w.put s with trees := w.trees ++ ts, txns := w.txns.set x (mark { r with st := s.txn }) } y = some m →
        w.live y = some m := fun s ts ho y m hy => by
      rw [live_set ht] at hy
      by_cases he : y = x
      · subst he
        rw [if_pos rfl] at hy
        rw [live_txn ht]
        have := hm2 _ _ hy
        simp only [TxnRec.live] at this ⊢
        rw [ho] at this
        exact this
      · rw [if_neg he] at hy; exact hy
    have key : ∀ s : St V, AgreeAll w.heap s.heap → s.txn.root = r.st.root → s.txn.maxNodeId = r.st.maxNodeId →
        s.txn.oldMaxNodeId = r.st.oldMaxNodeId →
        IsoRes w { w.put s with txns := w.txns.set x (mark { r with st := s.txn }) } S skip := fun s ha e1 e2 e3 => by
      have e := view_set (w := w) ht s [] (mark { r with st := s.txn }) (by rw [hm]; exact ⟨e1, e2⟩)
      have e' := hlive s [] e3
      rw [List.append_nil] at e e'
      exact .quiet hi skip e e' ha
    match hr : f (w.st r.st) with
    | (.error e, s) =>
      rw [hr] at h1 h2 h3 h4
      exact key s h1 h2 h3 h4
    | (.ok a, s) =>
      rw [hr] at h1 h2 h3 h4 h5
      rcases h5 a rfl with h6 | ⟨⟨nt, h6, h7, h8⟩, h9⟩
      · simp only [h6, List.append_nil]
        exact key s h1 h2 h3 h4
      · simp only [h6]
        refine .addView hi skip (p := (nt.root, nt.maxNodeId)) (S0 := S (.inr x)) (view_newTree w) ?_ (hlive s [nt] h4) h1 ?_ fun y m hy a ho => ?_
        · exact (view_set ht s [nt] _ (by rw [hm]; exact ⟨h2, h3⟩)).trans (view_addTree w s nt)
        · rw [h7, h8]
          exact (hi.region _ _ (view_txn ht)).agree (h1.on (hi.region _ _ (view_txn ht)))
        · rw [live_set ht] at hy
          by_cases he : y = x
          · subst he
            rw [if_pos rfl, h9] at hy; cases hy
          · rw [if_neg he] at hy
            exact hi.disj y m hy _ _ (view_txn ht) (by intro h; cases h; exact he rfl) a ho

/-- A write of an open transaction. -/
theorem IsoRes.write (hi : INV w.heap w.view w.live S O) {x : Nat} {f : M V α} {out : α → Out V × List Tree}
    (hout : ∀ a, (out a).2 = [])
    (hl : ∀ r, w.txns[x]? = some r → r.live ≠ none)
    (hf : ∀ (C : Cx V) (s : St V), (∀ k v, C.P k v) → J C s → C.Good s s.txn.root → TrT C f s) :
    IsoRes w (w.onTxn x f out).2 S (some x) := by
  unfold World.onTxn
  cases ht : w.txns[x]? with
  | none => exact .quiet hi _ rfl (fun _ _ h => h) (.refl _)
  | some r =>
    have hlv : r.ended = false ∧ r.copied = false := by
      have := hl r ht
      unfold TxnRec.live at this
      by_cases h : (r.ended || r.copied) = true
      · rw [if_pos h] at this; exact absurd rfl this
      · simpa using h
    have hlx : w.live x = some r.st.oldMaxNodeId := by rw [live_txn ht]; simp [TxnRec.live, hlv]
    obtain ⟨hj, hg⟩ := hi.toJ (x := x) (s := w.st r.st) rfl hlx (view_txn ht)
    have htr := hf _ (w.st r.st) (fun _ _ => trivial) hj hg
    simp only
    have key : ∀ s : St V, J (isoCx w.heap (S (.inr x)) (O x) r.st.oldMaxNodeId) s →
        (isoCx w.heap (S (.inr x)) (O x) r.st.oldMaxNodeId).Good s s.txn.root →
        IsoRes w { w.put s with txns := w.txns.set x { r with st := s.txn } } S (some x) := fun s hj hg => by
      obtain ⟨h1, h2⟩ := hi.write hlx (view_txn ht) hj hg
      have hview : World.view { w.put s with txns := w.txns.set x { r with st := s.txn } } =
          upd w.view (.inr x) (some (s.txn.root, s.txn.maxNodeId)) := by
        funext v
        cases v with
        | inl i => rw [upd_ne _ _ (by intro h; cases h)]; rfl
        | inr y =>
          show ((w.txns.set x { r with st := s.txn })[y]?).map _ = _
          rw [getElem?_set_some ht]
          by_cases hy : y = x
          · subst hy; rw [if_pos rfl, upd_self]; rfl
          · rw [if_neg hy, upd_ne _ _ (by intro h; cases h; exact hy rfl)]; rfl
      have hlive : World.live { w.put s with txns := w.txns.set x { r with st := s.txn } } = w.live := by
        funext y
        show ((w.txns.set x { r with st := s.txn })[y]?).bind _ = _
        rw [getElem?_set_some ht]
        by_cases hy : y = x
        · subst hy
          rw [if_pos rfl, hlx]
          show TxnRec.live _ = _
          simp [TxnRec.live, hlv, show s.txn.oldMaxNodeId = r.st.oldMaxNodeId from hj.om]
        · rw [if_neg hy]; rfl
      rw [← hview, ← hlive] at h1
      refine ⟨_, _, h1, hj.len, fun v p hp hne => ?_⟩
      have hne := hne x rfl
      exact ⟨by rw [hview, upd_ne _ _ hne]; exact hp, upd_ne _ _ hne, h2 v p hp hne⟩
    match hr : f (w.st r.st) with
    | (.ok a, s) =>
      have h1 := htr.j
      have h2 := htr.root
      rw [hr] at h1 h2
      simp only [hout, List.append_nil]
      exact key s h1 h2
    | (.error e, s) =>
      have h1 := htr.j
      have h2 := htr.root
      rw [hr] at h1 h2
      exact key s h1 h2
end

/-! ### Copies of roots -/

section
variable {h : Heap V} {S : Addr → Prop}

theorem Cell.pts_copy (c : Cell V) (k : Option ChanId) (b : Addr) : (c.copy k).Pts b ↔ c.Pts b := by
  cases c <;> exact Iff.rfl
theorem Cell.id_copy (c : Cell V) (k : Option ChanId) : (c.copy k).id = c.id := by cases c <;> rfl

theorem cloneNode_agree (a : Addr) (s : St V) : AgreeAll s.heap (cloneNode a true s).2.heap := by
  rw [cloneNode_run]
  cases hc : s.heap[a]? with
  | none => exact .refl _
  | some c => exact (AgreeAll.setCh hc _).trans (.append _ _)

theorem cloneNode_region {s : St V} {p : Addr × Nat} (hr : Region s.heap S p) :
    ∃ s1, cloneNode p.1 true s = (.ok s.heap.length, s1) ∧ s1.txn = s.txn ∧
      s1.heap.length = s.heap.length + 1 ∧ AgreeAll s.heap s1.heap ∧
      Region s1.heap (fun a => S a ∨ a = s.heap.length) (s.heap.length, p.2) := by
  obtain ⟨c, hc, hid, hpts⟩ := hr.cell _ hr.root
  have hrun := cloneNode_run p.1 s
  have hag := cloneNode_agree p.1 s
  rw [hrun] at hag
  rw [hrun]
  simp only [hc] at hag ⊢
  refine ⟨_, rfl, rfl, by simp, hag, .inr rfl, fun a ha => ?_⟩
  have key : ∀ a, S a → ∃ c', (s.heap.set p.1 (c.setCh (some (watchCh s c).1)) ++ [c.copy (some (watchCh s c).1)])[a]? = some c' ∧
      c'.id ≤ p.2 ∧ ∀ b, c'.Pts b → S b ∨ b = s.heap.length := fun a ha => by
    obtain ⟨c', h1, h2, h3⟩ := (hr.agree (hag.on hr)).cell a ha
    exact ⟨c', h1, h2, fun b hb => .inl (h3 b hb)⟩
  rcases ha with ha | ha
  · exact key a ha
  · subst ha
    refine ⟨c.copy (some (watchCh s c).1), ?_, by rw [Cell.id_copy]; exact hid, fun b hb => .inl (hpts b ((c.pts_copy _ b).1 hb))⟩
    show (s.heap.set p.1 _ ++ [_])[s.heap.length]? = _
    rw [List.getElem?_append_right (by simp)]; simp

theorem treeOp_region {α : Type} {m : M V α} {t : Tree} {s : St V} (hr : Region s.heap S (t.root, t.maxNodeId))
    (hf : ∀ (C : Cx V) (s : St V), (∀ k v, C.P k v) → J C s → C.Good s s.txn.root → TrT C m s) :
    AgreeAll s.heap (treeOp t m s).2.heap ∧
    ∀ r, (treeOp t m s).1 = .ok r → ∃ S0, Region (treeOp t m s).2.heap S0 (r.1.root, r.1.maxNodeId) ∧
      ∀ a, S0 a → a < s.heap.length → S a := by
  obtain ⟨s1, h1, htx, hlen, hag, hreg⟩ := cloneNode_region hr
  have hj : J (isoCx s1.heap (fun a => S a ∨ a = s.heap.length) (fun _ => False) t.maxNodeId)
      { s1 with txn := startTxn t s.heap.length } := by
    refine ⟨Nat.le_refl _, fun a c hc hacc => ?_, fun a _ _ => rfl, rfl⟩
    have hlt : a < s1.heap.length := (List.getElem?_eq_some_iff.1 hc).1
    have hs := hacc.resolve_right (by show ¬ s1.heap.length ≤ a; omega)
    obtain ⟨c', h3, h4, h5⟩ := hreg.cell a hs
    rw [show s1.heap[a]? = some c from hc] at h3; cases h3
    exact ⟨⟨fun b hb => ⟨.inl (h5 b hb), hreg.lt (h5 b hb)⟩, fun _ => h4, fun _ _ => trivial⟩,
      fun hid => absurd h4 (Nat.not_le.2 hid)⟩
  have htr := hf _ { s1 with txn := startTxn t s.heap.length } (fun _ _ => trivial) hj
    ⟨.inl (.inr rfl), by show s.heap.length < s1.heap.length; omega⟩
  have hrun := treeOp_run t m s fun r s2 hc => by
    rw [show cloneNode t.root true s = _ from h1] at hc
    cases hc
    exact htr.step.track
  rw [show cloneNode t.root true s = _ from h1] at hrun
  have hag2 : AgreeAll s1.heap (m { s1 with txn := startTxn t s.heap.length }).2.heap := fun a ha =>
    htr.j.frame a ha fun ho => ho.elim (fun h => h.elim) fun h => absurd ha (Nat.not_lt.2 h)
  match hm : m { s1 with txn := startTxn t s.heap.length } with
  | (.error e, s2) =>
    simp only [hm] at hrun
    rw [hm] at hag2
    rw [hrun]
    exact ⟨hag.trans hag2, fun r hr => by cases hr⟩
  | (.ok b, s2) =>
    simp only [hm] at hrun
    rw [hm] at hag2
    have hj2 := htr.j
    have hg2 := htr.root
    rw [hm] at hj2 hg2
    rw [hrun]
    refine ⟨hag.trans hag2, fun r hr => ?_⟩
    cases hr
    refine ⟨fun a => ((S a ∨ a = s.heap.length) ∨ s1.heap.length ≤ a) ∧ a < s2.heap.length, ⟨hg2, fun a ha => ?_⟩,
      fun a ha hlt => ?_⟩
    · obtain ⟨h3, -⟩ := hj2.cells a _ (List.getElem?_eq_getElem ha.2) ha.1
      exact ⟨_, List.getElem?_eq_getElem ha.2, h3.id_le trivial, fun b hb => h3.pts b hb⟩
    · rcases ha.1 with (h | h) | h
      · exact h
      · omega
      · omega

theorem watch_agree {s s' : St V} (hs : s' = s ∨ ∃ (a : Addr) (c : Cell V), s.heap[a]? = some c ∧ s' = s.watched a c) :
    AgreeAll s.heap s'.heap ∧ s'.txn = s.txn := by
  rcases hs with rfl | ⟨a, c, hc, rfl⟩
  · exact ⟨.refl _, rfl⟩
  · exact ⟨AgreeAll.setCh hc _, rfl⟩
end

/-! ### One call -/

section
variable [Inhabited V] {w : World V} {S : ViewId → Addr → Prop} {O : Nat → Addr → Prop}

theorem IsoRes.begin (hi : INV w.heap w.view w.live S O) {v : ViewId} {tr : Tree} (hv : w.view v = some (tr.root, tr.maxNodeId))
    (hnl : ∀ x, v = .inr x → ∀ m, w.live x = some m → ∀ a, ¬ O x a) (ts : TxnSt) (skip : Option Nat) :
    IsoRes w (w.addTxn (beginTxn tr (w.st ts))).2 S skip := by
  obtain ⟨s1, h1, htx, hlen, hag, hreg⟩ := cloneNode_region (s := w.st ts) (hi.region v _ hv)
  rw [beginTxn_run, show cloneNode tr.root true (w.st ts) = _ from h1]
  show IsoRes w { w.put s1 with txns := w.txns ++ [{ st := startTxn tr w.heap.length, ended := false, copied := false }] } S skip
  have hview : World.view { w.put s1 with txns := w.txns ++ [{ st := startTxn tr w.heap.length, ended := false, copied := false }] } =
      upd w.view (.inr w.txns.length) (some (w.heap.length, tr.maxNodeId)) := by
    funext v
    cases v with
    | inl i => rw [upd_ne _ _ (by intro h; cases h)]; rfl
    | inr y =>
      show ((w.txns ++ [_])[y]?).map _ = _
      rw [getElem?_snoc]
      by_cases hy : y = w.txns.length
      · subst hy; rw [if_pos rfl, upd_self]; rfl
      · rw [if_neg hy, upd_ne _ _ (by intro h; cases h; exact hy rfl)]; rfl
  have hlive : World.live { w.put s1 with txns := w.txns ++ [{ st := startTxn tr w.heap.length, ended := false, copied := false }] } =
      upd w.live w.txns.length (some tr.maxNodeId) := by
    funext y
    show ((w.txns ++ [_])[y]?).bind _ = _
    rw [getElem?_snoc]
    by_cases hy : y = w.txns.length
    · subst hy; rw [if_pos rfl, upd_self]; rfl
    · rw [if_neg hy, upd_ne _ _ hy]; rfl
  have hag' : AgreeAll w.heap s1.heap := hag
  have h2 := ((hi.quiet hag').addView (view_newTxn w) hreg fun x m hx a ho =>
    hi.apart (v := v) hv (S0 := fun a => S v a ∨ a = w.heap.length) (fun a ha hlt => by
      rcases ha with ha | ha
      · exact ha
      · omega) hx (fun h => hnl x h m hx a ho) a ho).addLive (live_newTxn w) (upd_self _ _ _) (Nat.le_refl _)
  have h2 : INV s1.heap (upd w.view (.inr w.txns.length) (some (w.heap.length, tr.maxNodeId)))
    (upd w.live w.txns.length (some tr.maxNodeId)) _ _ := h2
  rw [← hview, ← hlive] at h2
  refine ⟨_, _, h2, hag'.len, fun v' p hp _ => ?_⟩
  have hne : v' ≠ .inr w.txns.length := fun h => by rw [h, view_newTxn] at hp; cases hp
  exact ⟨by rw [hview, upd_ne _ _ hne]; exact hp, upd_ne _ _ hne, hag'.on (hi.region v' p hp)⟩

theorem allows_live (w : World V) {op : Op V} (ha : w.allows op = true) {x : Nat} (hx : op.writes = some x) (r : TxnRec)
    (hr : w.txns[x]? = some r) : r.live ≠ none := by
  unfold World.allows at ha
  simp only [hx, hr] at ha
  unfold TxnRec.live
  simp at ha
  simp [ha]

theorem exec_iso (hi : INV w.heap w.view w.live S O) (op : Op V) (hok : w.allows op = true) :
    IsoRes w (exec w op).2 S op.writes := by
  have hreg : ∀ (tr : Tree) t, w.trees[t]? = some tr → Region w.heap (S (.inl t)) (tr.root, tr.maxNodeId) := fun tr t h =>
    hi.region (.inl t) _ (by show (w.trees[t]?).map _ = _; rw [h]; rfl)
  have hq : ∀ r m, (_root_.id r : TxnRec).live = some m → r.live = some m := fun _ _ h => h
  have hend : ∀ r : TxnRec, ({ r with ended := true } : TxnRec).live = none := fun r => by simp [TxnRec.live]
  cases op with
  | newTree =>
    simp only [exec, newRadixTree_run]
    have hag : AgreeAll w.heap (w.heap ++ [resetLeaf 0] ++ [.inner (resetNode 0 w.heap.length)]) := by
      rw [List.append_assoc]; exact .append _ _
    refine .addView hi none (S0 := fun a => a = w.heap.length ∨ a = w.heap.length + 1) (view_newTree w)
      (view_addTree w _ _) (fun _ _ h => h) hag ?_ ?_
    · refine ⟨.inr rfl, fun a ha => ?_⟩
      rcases ha with rfl | rfl
      · refine ⟨resetLeaf 0, ?_, Nat.le_refl _, fun b hb => by rcases hb with h | h <;> cases h⟩
        show (w.heap ++ [resetLeaf 0] ++ [_])[w.heap.length]? = _
        rw [List.append_assoc, List.getElem?_append_right (Nat.le_refl _)]; simp
      · refine ⟨.inner (resetNode 0 w.heap.length), ?_, Nat.zero_le _, fun b hb => ?_⟩
        · show (w.heap ++ [resetLeaf 0] ++ [_])[w.heap.length + 1]? = _
          rw [List.append_assoc, List.getElem?_append_right (by omega)]; simp; rfl
        · rcases hb with h | h
          · cases h; exact .inl rfl
          · have := List.eq_of_mem_replicate h; cases this
    · intro x m hx a ho hs
      obtain ⟨q, hq⟩ := hi.viewed x m hx
      have := (hi.region _ q hq).lt (hi.sub x m hx a ho)
      rcases hs with rfl | rfl <;> omega
  | cloneTree t =>
    refine .onTree hi none fun tr h => ?_
    obtain ⟨s1, h1, htx, hlen, hag, hr⟩ := cloneNode_region (s := w.st default) (hreg tr t h)
    have hb : treeClone tr (w.st default) = (.ok { tr with root := w.heap.length }, s1) := by
      simp only [treeClone, bind_run]
      rw [show cloneNode tr.root true (w.st default) = _ from h1]; rfl
    rw [hb]
    refine ⟨hag, fun a ha => .inr ⟨_, _, rfl, by cases ha; exact hr, fun b hb hlt => ?_⟩⟩
    rcases hb with hb | hb
    · exact hb
    · subst hb; exact absurd hlt (Nat.lt_irrefl _)
  | insert t k v =>
    refine .onTree hi none fun tr h => ?_
    obtain ⟨h1, h2⟩ := treeOp_region (s := w.st default) (m := txnInsert k v) (hreg tr t h)
      fun C s hp hj hg => TrT.txnInsert hj hg (hp _ _)
    rw [← treeInsert_eq] at h1 h2
    exact ⟨h1, fun a ha => by obtain ⟨S0, h3, h4⟩ := h2 a ha; exact .inr ⟨_, S0, rfl, h3, h4⟩⟩
  | delete t k =>
    refine .onTree hi none fun tr h => ?_
    obtain ⟨h1, h2⟩ := treeOp_region (s := w.st default) (m := txnDelete k) (hreg tr t h)
      fun C s hp hj hg => TrT.txnDelete hj hg _ (hp _ _)
    rw [← treeDelete_eq] at h1 h2
    exact ⟨h1, fun a ha => by obtain ⟨S0, h3, h4⟩ := h2 a ha; exact .inr ⟨_, S0, rfl, h3, h4⟩⟩
  | deletePrefix t k =>
    refine .onTree hi none fun tr h => ?_
    obtain ⟨h1, h2⟩ := treeOp_region (s := w.st default) (m := txnDeletePrefix k) (hreg tr t h)
      fun C s hp hj hg => TrT.txnDeletePrefix hj hg _ (hp _ _)
    rw [← treeDeletePrefix_eq] at h1 h2
    exact ⟨h1, fun a ha => by obtain ⟨S0, h3, h4⟩ := h2 a ha; exact .inr ⟨_, S0, rfl, h3, h4⟩⟩
  | get t k =>
    refine .onTree hi none fun tr h => ⟨?_, fun a ha => .inl rfl⟩
    simp only [bind_run, M.get, lift_run]
    exact .refl _
  | getWatch t k => exact .onTree hi none fun tr h => ⟨(watch_agree (treeGetWatch_cases _ _ (w.st default))).1, fun a ha => .inl rfl⟩
  | seekPrefixWatch t p =>
    exact .onTree hi none fun tr h => ⟨(watch_agree (seekPrefixWatch_cases _ _ (w.st default))).1, fun a ha => .inl rfl⟩
  | len t => exact .onTree hi none fun tr h => ⟨.refl _, fun a ha => .inl rfl⟩
  | begin t =>
    simp only [exec]
    cases hr : w.trees[t]? with
    | none => exact .quiet hi none rfl (fun _ _ h => h) (.refl _)
    | some tr =>
      exact IsoRes.begin hi (v := .inl t) (by show (w.trees[t]?).map _ = _; rw [hr]; rfl) (fun x h => by cases h) _ none
  | txnClone x =>
    simp only [exec]
    cases hr : w.txns[x]? with
    | none => exact .quiet hi none rfl (fun _ _ h => h) (.refl _)
    | some r =>
      have hv : World.view { w with txns := w.txns.set x r.cloned } = w.view := by
        have := view_set (w := w) hr (w.st default) [] r.cloned ⟨rfl, rfl⟩
        rw [List.append_nil] at this
        exact this
      have hlv : ∀ y, World.live { w with txns := w.txns.set x r.cloned } y =
          if y = x then r.cloned.live else w.live y := fun y => by
        have := live_set (w := w) hr (w.st default) [] r.cloned y
        rw [List.append_nil] at this
        exact this
      have hcl : ∀ m, r.cloned.live = some m → r.live = some m ∧ r.st.maxNodeId = m := fun m hm => by
        unfold TxnRec.live TxnRec.cloned at hm
        simp only at hm
        split at hm
        · cases hm
        · next hc =>
          simp only [Bool.or_eq_true, bne_iff_ne, ne_eq, not_or, Bool.not_eq_true, Decidable.not_not] at hc
          cases hm
          exact ⟨by unfold TxnRec.live; rw [hc.1, hc.2.1]; rfl, hc.2.2⟩
      have hi1 : INV w.heap (World.view { w with txns := w.txns.set x r.cloned })
          (World.live { w with txns := w.txns.set x r.cloned }) S (upd O x fun _ => False) := by
        rw [hv]
        refine (hi.dropLive (live' := World.live { w with txns := w.txns.set x r.cloned }) fun y m hy => ?_).disown (view_txn hr) fun m hm => ?_
        · rw [hlv] at hy
          split at hy
          · next he => subst he; rw [live_txn hr]; exact (hcl m hy).1
          · exact hy
        · rw [hlv, if_pos rfl] at hm
          exact Nat.le_of_eq (hcl m hm).2
      obtain ⟨S', O', h1, h2, h3⟩ := IsoRes.begin (w := { w with txns := w.txns.set x r.cloned }) hi1
        (v := .inr x) (tr := ⟨r.st.root, r.st.size, r.st.maxNodeId⟩) (by rw [hv]; exact view_txn hr)
        (fun y hy m _ a ho => by cases hy; rw [upd_self] at ho; exact ho) r.st none
      refine ⟨S', O', h1, h2, fun v p hp hs => h3 v p (by rw [hv]; exact hp) hs⟩
  | trackMutate x b => exact .onTxn hi none (fun _ => rfl) hq fun r h => ⟨.refl _, rfl, rfl, rfl, fun a ha => .inl rfl⟩
  | txnInsert x k v =>
    exact .write hi (fun _ => rfl) (allows_live w hok rfl) fun C s hp hj hg => TrT.txnInsert hj hg (hp _ _)
  | txnDelete x k =>
    exact .write hi (fun _ => rfl) (allows_live w hok rfl) fun C s hp hj hg => TrT.txnDelete hj hg _ (hp _ _)
  | txnDeletePrefix x k =>
    exact .write hi (fun _ => rfl) (allows_live w hok rfl) fun C s hp hj hg => TrT.txnDeletePrefix hj hg _ (hp _ _)
  | txnGet x k =>
    refine .onTxn hi none (fun _ => rfl) hq fun r h => ?_
    have : (txnGet k (w.st r.st)).2 = w.st r.st := by
      simp only [txnGet, bind_run, M.get, lift_run]
      cases search _ _ _ <;> rfl
    rw [this]
    exact ⟨.refl _, rfl, rfl, rfl, fun a ha => .inl rfl⟩
  | txnGetWatch x k =>
    refine .onTxn hi none (fun _ => rfl) hq fun r h => ?_
    have hb : (do
      let t ← txnSt
      treeGetWatch { root := t.root, size := t.treeSize, maxNodeId := t.maxNodeId } k : M V _) (w.st r.st) =
      treeGetWatch { root := r.st.root, size := r.st.treeSize, maxNodeId := r.st.maxNodeId } k (w.st r.st) := rfl
    rw [hb]
    obtain ⟨h1, h2⟩ := watch_agree (treeGetWatch_cases
      { root := r.st.root, size := r.st.treeSize, maxNodeId := r.st.maxNodeId } k (w.st r.st))
    rw [h2]
    exact ⟨h1, rfl, rfl, rfl, fun a ha => .inl rfl⟩
  | commit x =>
    refine .onTxn hi none (fun _ => rfl) (fun r m h => by rw [hend] at h; cases h) fun r h => ?_
    rw [commit_run, notify_run]
    refine ⟨.refl _, ?_, ?_, ?_, fun a ha => .inr ⟨⟨a, rfl, by cases ha; rfl, by cases ha; rfl⟩, hend⟩⟩
    all_goals
      simp only
      split <;> rfl
  | commitOnly x =>
    refine .onTxn hi none (fun _ => rfl) (fun r m h => by rw [hend] at h; cases h) fun r h => ?_
    exact ⟨.refl _, rfl, rfl, rfl, fun a ha => .inr ⟨⟨a, rfl, by cases ha; rfl, by cases ha; rfl⟩, hend⟩⟩
  | notify x =>
    refine .onTxn hi none (fun _ => rfl) hq fun r h => ?_
    rw [notify_run]
    refine ⟨.refl _, ?_, ?_, ?_, fun a ha => .inl rfl⟩
    all_goals
      simp only
      split <;> rfl
end

end Art
