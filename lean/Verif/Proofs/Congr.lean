import Verif.Proofs.Sound
/-
Reads depend only on the nodes that can be reached, and not on their watch channels.
-/
set_option autoImplicit false
set_option linter.unusedVariables false
set_option linter.unusedSimpArgs false
namespace Art
variable {V : Type}

/-- The set is closed under pointers and has no dangling ones. -/
def Closed (h : Heap V) (S : Addr → Prop) : Prop :=
  ∀ a, S a → ∃ c, h[a]? = some c ∧ ∀ b, c.Pts b → S b

/-- On the set, the two heaps hold the same nodes apart from the watch channels. -/
def Agree (S : Addr → Prop) (h h' : Heap V) : Prop :=
  ∀ a, S a → (h'[a]?).map (·.setCh none) = (h[a]?).map (·.setCh none)

theorem Agree.refl (S : Addr → Prop) (h : Heap V) : Agree S h h := fun _ _ => rfl
theorem Agree.trans {S : Addr → Prop} {h h' h'' : Heap V} (h1 : Agree S h h') (h2 : Agree S h' h'') : Agree S h h'' :=
  fun a ha => (h2 a ha).trans (h1 a ha)

theorem Cell.setCh_eq {c c' : Cell V} (h : c'.setCh none = c.setCh none) : ∃ k, c' = c.setCh k :=
  ⟨c'.ch, by rw [← c.setCh_setCh none, ← h, Cell.setCh_setCh, Cell.setCh_self]⟩

variable {h h' : Heap V} {S : Addr → Prop}

theorem Closed.agree (hc : Closed h S) (ha : Agree S h h') : Closed h' S := fun a hs => by
  obtain ⟨c, h1, h2⟩ := hc a hs
  have := ha a hs
  rw [h1] at this
  cases h3 : h'[a]? with
  | none => rw [h3] at this; cases this
  | some c' =>
    rw [h3] at this
    obtain ⟨k, rfl⟩ := Cell.setCh_eq (Option.some.inj this)
    exact ⟨_, rfl, fun b hb => h2 b ((c.pts_setCh k b).1 hb)⟩

/-- The setting of the lemmas below. -/
structure Same (h h' : Heap V) (S : Addr → Prop) : Prop where
  closed : Closed h S
  agree : Agree S h h'

theorem Same.cell (hs : Same h h' S) {a : Addr} (ha : S a) :
    ∃ c k, h[a]? = some c ∧ h'[a]? = some (c.setCh k) ∧ ∀ b, c.Pts b → S b := by
  obtain ⟨c, h1, h2⟩ := hs.closed a ha
  have := hs.agree a ha
  rw [h1] at this
  cases h3 : h'[a]? with
  | none => rw [h3] at this; cases this
  | some c' =>
    rw [h3] at this
    obtain ⟨k, rfl⟩ := Cell.setCh_eq (Option.some.inj this)
    exact ⟨c, k, h1, rfl, h2⟩

theorem Same.rd (hs : Same h h' S) {a : Addr} (ha : S a) :
    ∃ c k, rd h a = .ok c ∧ rd h' a = .ok (c.setCh k) ∧ h[a]? = some c ∧ ∀ b, c.Pts b → S b := by
  obtain ⟨c, k, h1, h2, h3⟩ := hs.cell ha
  exact ⟨c, k, by rw [Art.rd, h1], by rw [Art.rd, h2], h1, h3⟩

theorem Same.rdLeaf (hs : Same h h' S) {a : Addr} (ha : S a) :
    (∃ l k, rdLeaf h a = .ok l ∧ rdLeaf h' a = .ok { l with ch := k }) ∨
    (rdLeaf h a = .error .nilDeref ∧ rdLeaf h' a = .error .nilDeref) := by
  obtain ⟨c, k, h1, h2, h3⟩ := hs.cell ha
  cases c with
  | leaf l => exact .inl ⟨l, k, by rw [Art.rdLeaf, h1], by rw [Art.rdLeaf, h2]; rfl⟩
  | inner n => exact .inr ⟨by rw [Art.rdLeaf, h1], by rw [Art.rdLeaf, h2]; rfl⟩

/-! ### Loop bounds -/

/-- A recursion over nodes of a set of fewer than `N` nodes gives the same result with any bound from `N` on. -/
theorem stabilise {α : Type} (F : Nat → Addr → R α) {N : Nat} (hS : ∀ a, S a → a < N)
    (mono : ∀ n a, F n a ≠ .error .fuel → F (n + 1) a = F n a)
    (step : ∀ n, (∀ a, S a → F (n + 1) a = F n a) → ∀ a, S a → F (n + 2) a = F (n + 1) a)
    {n m : Nat} (hn : N ≤ n) (hm : N ≤ m) {a : Addr} (ha : S a) : F n a = F m a := by
  classical
  let K : Nat → Nat := fun n => ((List.range N).filter fun a => decide (S a ∧ F n a = .error .fuel)).length
  have hK : ∀ n, (∀ a, S a → F (n + 1) a = F n a) ∨ K (n + 1) < K n := by
    intro n
    by_cases h : ∀ a, S a → F (n + 1) a = F n a
    · exact .inl h
    · right
      obtain ⟨a, hx⟩ := Classical.not_forall.1 h
      obtain ⟨ha, hne⟩ := Classical.not_imp.1 hx
      have hfa : F n a = .error .fuel := by
        exact Classical.byContradiction fun hc => hne (mono n a hc)
      have hsub : ((List.range N).filter fun a => decide (S a ∧ F (n + 1) a = .error .fuel)).Sublist
          (((List.range N).filter fun a => decide (S a ∧ F n a = .error .fuel)).erase a) := by
        have h1 : ((List.range N).filter fun a => decide (S a ∧ F (n + 1) a = .error .fuel)).Sublist
            ((List.range N).filter fun a => decide (S a ∧ F n a = .error .fuel)) := by
          refine List.Sublist.trans (l₂ := ((List.range N).filter fun a => decide (S a ∧ F n a = .error .fuel)).filter
            fun a => decide (S a ∧ F (n + 1) a = .error .fuel)) ?_ (List.filter_sublist)
          rw [List.filter_filter]
          have heq : ∀ l : List Nat, l.filter (fun a => decide (S a ∧ F (n + 1) a = .error .fuel)) =
              l.filter (fun a => decide (S a ∧ F (n + 1) a = .error .fuel) && decide (S a ∧ F n a = .error .fuel)) :=
            fun l => List.filter_congr fun b _ => ?_
          · rw [heq]; exact List.Sublist.refl _
          rw [Bool.eq_iff_iff]
          simp only [Bool.and_eq_true, decide_eq_true_eq]
          refine ⟨fun hb => ⟨hb, ?_⟩, fun hb => hb.1⟩
          refine ⟨hb.1, ?_⟩
          exact Classical.byContradiction fun hc => by
            rw [mono n b hc] at hb
            exact hc hb.2
        have h2 := h1.erase a
        rwa [List.erase_of_not_mem (by
          simp only [List.mem_filter, decide_eq_true_eq, not_and]
          intro _ h3 h4
          exact absurd (h4.trans hfa.symm) hne)] at h2
      have hmem : a ∈ (List.range N).filter fun a => decide (S a ∧ F n a = .error .fuel) := by
        simp [hS a ha, ha, hfa]
      have := hsub.length_le
      rw [List.length_erase_of_mem hmem] at this
      have hpos := List.length_pos_of_mem hmem
      show (List.length _) < (List.length _)
      omega
  have hst : ∀ n, (∀ a, S a → F (n + 1) a = F n a) → ∀ m, n ≤ m → ∀ a, S a → F (m + 1) a = F m a := by
    intro n h m hm
    induction hm with
    | refl => exact h
    | step _ ih => exact step _ ih
  have hall : ∀ n, (∃ j, j ≤ n ∧ ∀ a, S a → F (j + 1) a = F j a) ∨ K n + n ≤ N := by
    intro n
    induction n with
    | zero =>
      right
      have : K 0 ≤ N := by
        have := List.length_filter_le (fun a => decide (S a ∧ F 0 a = .error .fuel)) (List.range N)
        simpa [K] using this
      omega
    | succ n ih =>
      rcases ih with ⟨j, hj, h⟩ | ih
      · exact .inl ⟨j, by omega, h⟩
      · rcases hK n with h | h
        · exact .inl ⟨n, by omega, h⟩
        · right; omega
  have hN : ∀ a, S a → F (N + 1) a = F N a := by
    rcases hall N with ⟨j, hj, h⟩ | h
    · exact hst j h N hj
    · intro a ha
      apply mono
      intro hf
      have hmem : a ∈ (List.range N).filter fun a => decide (S a ∧ F N a = .error .fuel) := by
        simp [hS a ha, ha, hf]
      have hpos := List.length_pos_of_mem hmem
      have : 0 < K N := hpos
      omega
  have hfin : ∀ m, N ≤ m → F m a = F N a := by
    intro m hm
    induction hm with
    | refl => rfl
    | step hm ih => exact (hst N hN _ hm a ha).trans ih
  rw [hfin n hn, hfin m hm]

/-! ### Minimum and maximum -/

/-- Descend from a node as `step` says: stop with a result, or go on at a child. -/
def descend (h : Heap V) (step : Addr → Cell V → R (Option Addr ⊕ Option Addr)) : Nat → Option Addr → R (Option Addr)
  | _, none => .ok none
  | 0, some _ => .error .fuel
  | n + 1, some a => do
    match ← step a (← rd h a) with
    | .inl r => pure r
    | .inr o => descend h step n o

/-- One step of `minimum`. -/
def minStep (a : Addr) : Cell V → R (Option Addr ⊕ Option Addr)
  | .leaf _ => pure (.inl (some a))
  | .inner n =>
    if n.isLeaf then pure (.inl n.leaf)
    else
      if n.leaf.isSome then pure (.inl n.leaf)
      else
        match n.kind with
        | .n4 | .n16 => do pure (.inr (← n.getChild 0))
        | .n48 => do
          let k ← n.getKeyAtIdx (firstKey48 n.keys)
          let idx := (k - 1).toNat
          if idx < 48 then do pure (.inr (← n.getChild idx)) else pure (.inl none)
        | .n256 => do
          let idx := n.children.findIdx (·.isSome)
          if idx < 256 then do pure (.inr (← n.getChild idx)) else pure (.inl none)

/-- One step of `maximum`. -/
def maxStep (a : Addr) : Cell V → R (Option Addr ⊕ Option Addr)
  | .leaf _ => pure (.inl (some a))
  | .inner n =>
    if n.isLeaf then pure (.inl n.leaf)
    else
      match n.kind with
      | .n4 | .n16 => do pure (.inr (← n.getChild (n.numChildren - 1).toNat))
      | .n48 =>
        match lastIdx n.keys (· != 0) 256 with
        | none => .error .index
        | some i => do
          let k ← n.getKeyAtIdx i
          let idx := (k - 1).toNat
          if idx < 48 then do pure (.inr (← n.getChild idx)) else pure (.inl none)
      | .n256 =>
        match lastIdx n.children (·.isSome) 256 with
        | none => pure (.inl none)
        | some i => do pure (.inr (← n.getChild i))

theorem bind_bind {α β γ : Type} (r : R α) (f : α → R β) (g : β → R γ) : (r >>= f) >>= g = r >>= fun a => f a >>= g := by
  cases r <;> rfl
theorem pure_bind {α β : Type} (a : α) (f : α → R β) : (pure a : R α) >>= f = f a := rfl

theorem minimumAux_eq (h : Heap V) (n : Nat) (o : Option Addr) : minimumAux h n o = descend h minStep n o := by
  induction n generalizing o with
  | zero => cases o <;> rfl
  | succ n ih =>
    cases o with
    | none => rfl
    | some a =>
      unfold minimumAux descend
      cases rd h a with
      | error e => rfl
      | ok c =>
        simp only [Except.bind_ok]
        cases c with
        | leaf l => rfl
        | inner nd =>
          simp only [minStep]
          cases nd.isLeaf with
          | true => rfl
          | false =>
            cases nd.leaf.isSome with
            | true => rfl
            | false =>
              simp only [Bool.false_eq_true, if_false]
              cases nd.kind with
              | n48 =>
                simp only [bind_bind]
                cases nd.getKeyAtIdx (firstKey48 nd.keys) with
                | error e => rfl
                | ok k =>
                  simp only [Except.bind_ok]
                  split
                  · simp only [bind_bind, pure_bind, ih]
                  · rfl
              | n256 =>
                simp only
                split
                · simp only [bind_bind, pure_bind, ih]
                · rfl
              | _ => simp only [bind_bind, pure_bind, ih]

theorem maximumAux_eq (h : Heap V) (n : Nat) (o : Option Addr) : maximumAux h n o = descend h maxStep n o := by
  induction n generalizing o with
  | zero => cases o <;> rfl
  | succ n ih =>
    cases o with
    | none => rfl
    | some a =>
      unfold maximumAux descend
      cases rd h a with
      | error e => rfl
      | ok c =>
        simp only [Except.bind_ok]
        cases c with
        | leaf l => rfl
        | inner nd =>
          simp only [maxStep]
          cases nd.isLeaf with
          | true => rfl
          | false =>
            simp only [Bool.false_eq_true, if_false]
            cases nd.kind with
            | n48 =>
              simp only
              cases lastIdx nd.keys (· != 0) 256 with
              | none => rfl
              | some i =>
                simp only [bind_bind]
                cases nd.getKeyAtIdx i with
                | error e => rfl
                | ok k =>
                  simp only [Except.bind_ok]
                  split
                  · simp only [bind_bind, pure_bind, ih]
                  · rfl
            | n256 =>
              simp only
              cases lastIdx nd.children (·.isSome) 256 with
              | none => rfl
              | some i => simp only [bind_bind, pure_bind, ih]
            | _ => simp only [bind_bind, pure_bind, ih]

/-- What the lemmas below need to know of a step function. -/
structure StepOK (step : Addr → Cell V → R (Option Addr ⊕ Option Addr)) : Prop where
  setCh : ∀ a c k, step a (c.setCh k) = step a c
  next : ∀ a c b, step a c = .ok (.inr (some b)) → c.Pts b
  stop : ∀ a c b, step a c = .ok (.inl (some b)) → b = a ∨ c.Pts b
  nofuel : ∀ a c, step a c ≠ .error .fuel

theorem Inner.getChild_nofuel (n : Inner) (i : Int) : n.getChild i ≠ .error .fuel := by
  unfold Inner.getChild
  repeat' split
  all_goals nofun
theorem Inner.getKeyAtIdx_nofuel (n : Inner) (i : Nat) : n.getKeyAtIdx i ≠ .error .fuel := by
  unfold Inner.getKeyAtIdx
  repeat' split
  all_goals nofun

/-- The possible outcomes of a step at an inner node. -/
def StepCases (n : Inner) (r : R (Option Addr ⊕ Option Addr)) : Prop :=
  (∃ i : Int, r = n.getChild i >>= fun o => .ok (.inr o)) ∨ (∃ o, (o = n.leaf ∨ o = none) ∧ r = .ok (.inl o)) ∨
  ∃ e, e ≠ .fuel ∧ r = .error e

theorem getKeyAtIdx_cases {n : Inner} {i : Nat} {f : Byte → R (Option Addr ⊕ Option Addr)}
    (hf : ∀ k, StepCases n (f k)) : StepCases n (n.getKeyAtIdx i >>= f) := by
  cases hk : n.getKeyAtIdx i with
  | error e => exact .inr (.inr ⟨e, fun h => n.getKeyAtIdx_nofuel i (h ▸ hk), rfl⟩)
  | ok k => exact hf k

theorem minStep_cases (a : Addr) (n : Inner) : StepCases n (minStep a (.inner n : Cell V)) := by
  simp only [minStep]
  split
  · exact .inr (.inl ⟨_, .inl rfl, rfl⟩)
  · split
    · exact .inr (.inl ⟨_, .inl rfl, rfl⟩)
    · split
      · exact .inl ⟨_, rfl⟩
      · exact .inl ⟨_, rfl⟩
      · refine getKeyAtIdx_cases fun k => ?_
        split
        · exact .inl ⟨_, rfl⟩
        · exact .inr (.inl ⟨_, .inr rfl, rfl⟩)
      · split
        · exact .inl ⟨_, rfl⟩
        · exact .inr (.inl ⟨_, .inr rfl, rfl⟩)

theorem maxStep_cases (a : Addr) (n : Inner) : StepCases n (maxStep a (.inner n : Cell V)) := by
  simp only [maxStep]
  split
  · exact .inr (.inl ⟨_, .inl rfl, rfl⟩)
  · split
    · exact .inl ⟨_, rfl⟩
    · exact .inl ⟨_, rfl⟩
    · split
      · exact .inr (.inr ⟨.index, nofun, rfl⟩)
      · refine getKeyAtIdx_cases fun k => ?_
        split
        · exact .inl ⟨_, rfl⟩
        · exact .inr (.inl ⟨_, .inr rfl, rfl⟩)
    · split
      · exact .inr (.inl ⟨_, .inr rfl, rfl⟩)
      · exact .inl ⟨_, rfl⟩

theorem StepOK.of {step : Addr → Cell V → R (Option Addr ⊕ Option Addr)} (h0 : ∀ a c k, step a (c.setCh k) = step a c)
    (h1 : ∀ a l, step a (.leaf l) = .ok (.inl (some a))) (h2 : ∀ a n, StepCases n (step a (.inner n))) : StepOK step where
  setCh := h0
  next := fun a c b hb => by
    cases c with
    | leaf l => rw [h1] at hb; cases hb
    | inner n =>
      rcases h2 a n with ⟨i, hi⟩ | ⟨o, -, ho⟩ | ⟨e, -, he⟩
      · rw [hi] at hb
        obtain ⟨x, hx, hb⟩ := R.bind_ok hb
        cases hb
        exact .inr (Inner.mem_getChild hx)
      · rw [ho] at hb; cases hb
      · rw [he] at hb; cases hb
  stop := fun a c b hb => by
    cases c with
    | leaf l => rw [h1] at hb; cases hb; exact .inl rfl
    | inner n =>
      rcases h2 a n with ⟨i, hi⟩ | ⟨o, h', ho⟩ | ⟨e, -, he⟩
      · rw [hi] at hb
        obtain ⟨x, hx, hb⟩ := R.bind_ok hb
        cases hb
      · rw [ho] at hb
        cases hb
        rcases h' with h' | h'
        · exact .inr (.inl h'.symm)
        · cases h'
      · rw [he] at hb; cases hb
  nofuel := fun a c hb => by
    cases c with
    | leaf l => rw [h1] at hb; cases hb
    | inner n =>
      rcases h2 a n with ⟨i, hi⟩ | ⟨o, h', ho⟩ | ⟨e, hne, he⟩
      · rw [hi] at hb
        cases hg : n.getChild i with
        | error e => rw [hg] at hb; cases hb; exact n.getChild_nofuel i hg
        | ok o => rw [hg] at hb; cases hb
      · rw [ho] at hb; cases hb
      · rw [he] at hb; cases hb; exact hne rfl

theorem minStep_ok : StepOK (V := V) minStep :=
  .of (fun a c k => by cases c <;> rfl) (fun _ _ => rfl) minStep_cases
theorem maxStep_ok : StepOK (V := V) maxStep :=
  .of (fun a c k => by cases c <;> rfl) (fun _ _ => rfl) maxStep_cases

section descend
variable {step : Addr → Cell V → R (Option Addr ⊕ Option Addr)}

theorem descend_succ (hst : StepOK step) (n : Nat) (o : Option Addr) (hne : descend h step n o ≠ .error .fuel) :
    descend h step (n + 1) o = descend h step n o := by
  induction n generalizing o with
  | zero =>
    cases o with
    | none => rfl
    | some a => exact absurd rfl hne
  | succ n ih =>
    cases o with
    | none => rfl
    | some a =>
      unfold descend
      unfold descend at hne
      cases hr : rd h a with
      | error e => rfl
      | ok c =>
        simp only [hr, Except.bind_ok] at hne ⊢
        cases hs : step a c with
        | error e => rfl
        | ok x =>
          simp only [hs, Except.bind_ok] at hne ⊢
          cases x with
          | inl r => rfl
          | inr o => exact ih o hne

theorem descend_congr (hst : StepOK step) (hs : Same h h' S) (n : Nat) (o : Option Addr) (ho : ∀ a, o = some a → S a) :
    descend h' step n o = descend h step n o ∧ ∀ b, descend h step n o = .ok (some b) → S b := by
  induction n generalizing o with
  | zero =>
    cases o with
    | none => exact ⟨rfl, fun b hb => by cases hb⟩
    | some a => exact ⟨rfl, fun b hb => by cases hb⟩
  | succ n ih =>
    cases o with
    | none => exact ⟨rfl, fun b hb => by cases hb⟩
    | some a =>
      obtain ⟨c, k, h1, h2, -, h3⟩ := hs.rd (ho a rfl)
      unfold descend
      simp only [h1, h2, Except.bind_ok, hst.setCh]
      cases hx : step a c with
      | error e => exact ⟨rfl, fun b hb => by cases hb⟩
      | ok x =>
        simp only [Except.bind_ok]
        cases x with
        | inl r =>
          refine ⟨rfl, fun b hb => ?_⟩
          cases hb
          rcases hst.stop a c b hx with rfl | h4
          · exact ho _ rfl
          · exact h3 b h4
        | inr o =>
          exact ih o fun b hb => h3 b (hst.next a c b (by rw [hx, hb]))

theorem descend_stable (hst : StepOK step) (hc : Closed h S) {n m : Nat} (hn : h.length ≤ n) (hm : h.length ≤ m)
    (o : Option Addr) (ho : ∀ a, o = some a → S a) : descend h step n o = descend h step m o := by
  cases o with
  | none => cases n <;> cases m <;> rfl
  | some a =>
    refine stabilise (S := S) (fun n a => descend h step n (some a)) (N := h.length) (fun a ha => ?_)
      (fun n a hne => descend_succ hst n _ hne) (fun n hst' a ha => ?_) hn hm (ho a rfl)
    · obtain ⟨c, hc, -⟩ := hc a ha
      exact (List.getElem?_eq_some_iff.1 hc).1
    · obtain ⟨c, hc, hp⟩ := hc a ha
      have hr : rd h a = .ok c := by rw [rd, hc]
      unfold descend
      simp only [hr, Except.bind_ok]
      cases hx : step a c with
      | error e => rfl
      | ok x =>
        simp only [Except.bind_ok]
        cases x with
        | inl r => rfl
        | inr o =>
          cases o with
          | none => cases n <;> rfl
          | some b => exact hst' b (hp b (hst.next a c b hx))

theorem descend_len (hst : StepOK step) (hs : Same h h' S) (hl : h.length ≤ h'.length) (o : Option Addr)
    (ho : ∀ a, o = some a → S a) : descend h' step (h'.length + 1) o = descend h step (h.length + 1) o := by
  rw [(descend_congr hst hs _ o ho).1]
  exact descend_stable hst hs.closed (by omega) (by omega) o ho

end descend

theorem minimum_congr (hs : Same h h' S) (hl : h.length ≤ h'.length) (o : Option Addr) (ho : ∀ a, o = some a → S a) :
    minimum h' o = minimum h o ∧ ∀ b, minimum h o = .ok (some b) → S b := by
  unfold minimum
  simp only [minimumAux_eq]
  exact ⟨descend_len minStep_ok hs hl o ho, (descend_congr minStep_ok hs _ o ho).2⟩

theorem maximum_congr (hs : Same h h' S) (hl : h.length ≤ h'.length) (o : Option Addr) (ho : ∀ a, o = some a → S a) :
    maximum h' o = maximum h o ∧ ∀ b, maximum h o = .ok (some b) → S b := by
  unfold maximum
  simp only [maximumAux_eq]
  exact ⟨descend_len maxStep_ok hs hl o ho, (descend_congr maxStep_ok hs _ o ho).2⟩

end Art
