import Verif.Proofs.WorldAll
/-
The channel of a leaf is in no other node, and neither closed nor about to be closed.  (Leaves are copied without
their channel, and a leaf whose channel is put on the list of channels to be closed gets a new one at once.)
-/
set_option autoImplicit false
set_option linter.unusedVariables false
set_option linter.unusedSimpArgs false
set_option linter.unusedSectionVars false
namespace Art
variable {V : Type}

/-- The channels of the leaves in the heap `h`, when `n` channels exist, those of `sl` are about to be closed by
the running transaction, and those of `D` are closed or about to be closed by others. -/
structure Lone (D : ChanId → Prop) (h : Heap V) (n : Nat) (sl : List ChanId) : Prop where
  lt : ∀ (a : Addr) c k, h[a]? = some c → c.ch = some k → k < n
  dead : ∀ k, D k → k < n
  slice : ∀ k ∈ sl, k < n
  leaf : ∀ (a : Addr) l k, h[a]? = some (.leaf l) → l.ch = some k → ¬ D k ∧ k ∉ sl ∧ ∀ (b : Addr) d, h[b]? = some d → d.ch = some k → b = a

variable {D : ChanId → Prop} {h : Heap V} {n : Nat} {sl : List ChanId} {a : Addr} {c c0 : Cell V}

theorem Lone.mono (hl : Lone D h n sl) {n' : Nat} (hn : n ≤ n') : Lone D h n' sl :=
  ⟨fun b d k h1 h2 => Nat.lt_of_lt_of_le (hl.lt b d k h1 h2) hn, fun k hk => Nat.lt_of_lt_of_le (hl.dead k hk) hn,
    fun k hk => Nat.lt_of_lt_of_le (hl.slice k hk) hn, hl.leaf⟩

theorem Lone.weaken (hl : Lone D h n sl) {D' : ChanId → Prop} {sl' : List ChanId} (hD : ∀ k, D' k → D k ∨ k ∈ sl) (hs : ∀ k ∈ sl', D k ∨ k ∈ sl) :
    Lone D' h n sl' where
  lt := hl.lt
  dead := fun k hk => (hD k hk).elim (hl.dead k) (hl.slice k)
  slice := fun k hk => (hs k hk).elim (hl.dead k) (hl.slice k)
  leaf := fun b l k h1 h2 =>
    have h3 := hl.leaf b l k h1 h2
    ⟨fun hk => (hD k hk).elim h3.1 h3.2.1, fun hk => (hs k hk).elim h3.1 h3.2.1, h3.2.2⟩

theorem Lone.set (hl : Lone D h n sl) (h0 : h[a]? = some c0) (hc : c.ch = c0.ch) (hlf : ∀ l, c = .leaf l → ∃ l0, c0 = .leaf l0) :
    Lone D (h.set a c) n sl := by
  have hlt := (List.getElem?_eq_some_iff.1 h0).1
  have old : ∀ (b : Addr) (d : Cell V), (h.set a c)[b]? = some d → ∃ d0, h[b]? = some d0 ∧ d0.ch = d.ch ∧ ∀ l, d = .leaf l → ∃ l0, d0 = .leaf l0 := fun b d hd => by
    by_cases hab : a = b
    · subst hab
      rw [List.getElem?_set_self hlt] at hd
      cases hd
      exact ⟨c0, h0, hc.symm, hlf⟩
    · rw [List.getElem?_set_ne hab] at hd
      exact ⟨d, hd, rfl, fun l hl => ⟨l, hl⟩⟩
  refine ⟨fun b d k h1 h2 => ?_, hl.dead, hl.slice, fun b l k h1 h2 => ?_⟩
  · obtain ⟨d0, h3, h4, -⟩ := old b d h1
    exact hl.lt b d0 k h3 (h4.trans h2)
  · obtain ⟨d0, h3, h4, h5⟩ := old b _ h1
    obtain ⟨l0, rfl⟩ := h5 l rfl
    obtain ⟨h6, h7, h8⟩ := hl.leaf b l0 k h3 (h4.trans h2)
    refine ⟨h6, h7, fun b' d' h9 h10 => ?_⟩
    obtain ⟨d1, g1, g2, -⟩ := old b' d' h9
    exact h8 b' d1 g1 (g2.trans h10)

theorem Lone.append (hl : Lone D h n sl)
    (hc : ∀ k, c.ch = some k → (∃ m, c = .inner m) ∧ ∃ (b : Addr) (m : Inner), h[b]? = some (.inner m) ∧ m.ch = some k) : Lone D (h ++ [c]) n sl := by
  have old : ∀ (b : Addr) (d : Cell V), (h ++ [c])[b]? = some d → h[b]? = some d ∨ (b = h.length ∧ d = c) := fun b d hd => by
    rw [List.getElem?_append] at hd
    split at hd
    · exact Or.inl hd
    · next hb =>
      have hlt := (List.getElem?_eq_some_iff.1 hd).1
      simp only [List.length_singleton] at hlt
      have hb' : b - h.length = 0 := by omega
      rw [hb'] at hd
      exact Or.inr ⟨by omega, by simpa using hd.symm⟩
  refine ⟨fun b d k h1 h2 => ?_, hl.dead, hl.slice, fun b l k h1 h2 => ?_⟩
  · rcases old b d h1 with h1 | ⟨-, rfl⟩
    · exact hl.lt b d k h1 h2
    · obtain ⟨-, b', m, h3, h4⟩ := hc k h2
      exact hl.lt b' _ k h3 h4
  · rcases old b _ h1 with h0 | ⟨-, hd⟩
    · obtain ⟨h6, h7, h8⟩ := hl.leaf b l k h0 h2
      refine ⟨h6, h7, fun b' d' h9 h10 => ?_⟩
      rcases old b' d' h9 with h9 | ⟨-, rfl⟩
      · exact h8 b' d' h9 h10
      · obtain ⟨-, b2, m, g1, g2⟩ := hc k h10
        have : b2 = b := h8 b2 _ g1 g2
        subst this
        rw [h0] at g1
        cases g1
    · subst hd
      obtain ⟨⟨m, hm⟩, -⟩ := hc k h2
      cases hm

theorem Cell.ch_setCh (c : Cell V) (k : Option ChanId) : (c.setCh k).ch = k := by cases c <;> rfl

/-- A node gets a new channel; its old one may be put on the list. -/
theorem Lone.setCh (hl : Lone D h n sl) (h0 : h[a]? = some c) {sl' : List ChanId} (hs : ∀ k ∈ sl', k ∈ sl ∨ c.ch = some k) :
    Lone D (h.set a (c.setCh (some n))) (n + 1) sl' := by
  have hlt := (List.getElem?_eq_some_iff.1 h0).1
  have old : ∀ (b : Addr) (d : Cell V), (h.set a (c.setCh (some n)))[b]? = some d → (b = a ∧ d = c.setCh (some n)) ∨ (b ≠ a ∧ h[b]? = some d) := fun b d hd => by
    by_cases hab : a = b
    · subst hab
      rw [List.getElem?_set_self hlt] at hd
      cases hd
      exact Or.inl ⟨rfl, rfl⟩
    · rw [List.getElem?_set_ne hab] at hd
      exact Or.inr ⟨fun h => hab h.symm, hd⟩
  have hsl : ∀ k ∈ sl', k < n := fun k hk => (hs k hk).elim (hl.slice k) (hl.lt a c k h0)
  refine ⟨fun b d k h1 h2 => ?_, fun k hk => Nat.lt_succ_of_lt (hl.dead k hk), fun k hk => Nat.lt_succ_of_lt (hsl k hk), fun b l k h1 h2 => ?_⟩
  · rcases old b d h1 with ⟨-, rfl⟩ | ⟨-, h1⟩
    · rw [Cell.ch_setCh] at h2
      cases h2
      exact Nat.lt_succ_self _
    · exact Nat.lt_succ_of_lt (hl.lt b d k h1 h2)
  · rcases old b _ h1 with ⟨rfl, hd⟩ | ⟨hb, h1⟩
    · have hk : k = n := by
        have h3 : (Cell.leaf l : Cell V).ch = some k := h2
        rw [hd, Cell.ch_setCh] at h3
        exact (Option.some.inj h3).symm
      subst hk
      refine ⟨fun hk => absurd (hl.dead k hk) (Nat.lt_irrefl _), fun hk => absurd (hsl k hk) (Nat.lt_irrefl _), fun b' d' h9 h10 => ?_⟩
      rcases old b' d' h9 with ⟨h, -⟩ | ⟨-, h9⟩
      · exact h
      · exact absurd (hl.lt b' d' k h9 h10) (Nat.lt_irrefl _)
    · obtain ⟨h6, h7, h8⟩ := hl.leaf b l k h1 h2
      refine ⟨h6, fun hk => ?_, fun b' d' h9 h10 => ?_⟩
      · rcases hs k hk with hk | hk
        · exact h7 hk
        · exact hb (h8 a c h0 hk).symm
      · rcases old b' d' h9 with ⟨-, rfl⟩ | ⟨-, h9⟩
        · rw [Cell.ch_setCh] at h10
          cases h10
          exact absurd (hl.lt b _ _ h1 h2) (Nat.lt_irrefl _)
        · exact h8 b' d' h9 h10

/-- A part of a call keeps the channels of leaves apart. -/
def Lones (s s' : St V) : Prop := ∀ D : ChanId → Prop, Lone D s.heap s.chans.length s.txn.trackChnSlice → Lone D s'.heap s'.chans.length s'.txn.trackChnSlice

theorem Lones.refl (s : St V) : Lones s s := fun _ h => h
theorem Lones.trans {s s' s'' : St V} (h1 : Lones s s') (h2 : Lones s' s'') : Lones s s'' := fun D h => h2 D (h1 D h)

theorem getMutateCh_lones (a : Addr) (s : St V) : Lones s (getMutateCh a s).2 := fun D hl => by
  rw [getMutateCh_run']
  cases hc : s.heap[a]? with
  | none => exact hl
  | some c =>
    simp only [St.watched, watchCh]
    cases hk : c.ch with
    | some k =>
      have : c.setCh (some k) = c := by rw [← hk]; exact c.setCh_self
      simp only [this, set_self hc, List.replicate_zero, List.append_nil]
      exact hl
    | none =>
      simp only [List.length_append, List.length_replicate]
      exact hl.setCh hc fun k hk => Or.inl hk

/-- The channel asked for is in the node. -/
theorem getMutateCh_at {a : Addr} {s s' : St V} {k : ChanId} (h : getMutateCh a s = (.ok k, s')) : ∃ c, s'.heap[a]? = some c ∧ c.ch = some k := by
  rw [getMutateCh_run'] at h
  cases hc : s.heap[a]? with
  | none => rw [hc] at h; cases h
  | some c =>
    rw [hc] at h
    cases h
    exact ⟨_, List.getElem?_set_self (List.getElem?_eq_some_iff.1 hc).1, Cell.ch_setCh _ _⟩

theorem trackChannel_lones (a : Option Addr) (s : St V) : Lones s (trackChannel a s).2 := fun D hl => by
  rw [trackChannel_run]
  split
  · split
    · exact hl
    · next a =>
      cases hc : s.heap[a]? with
      | none => exact hl
      | some c =>
        simp only [trackedCh]
        cases hk : c.ch with
        | some k =>
          simp only [List.length_append, List.length_replicate]
          exact hl.setCh hc fun j hj => by
            rcases List.mem_append.1 hj with h | h
            · exact Or.inl h
            · rw [List.mem_singleton] at h; subst h; exact Or.inr hk
        | none =>
          simp only [List.length_append, List.length_replicate]
          have h1 := hl.setCh hc (sl' := s.txn.trackChnSlice) fun k hk => Or.inl hk
          have h2 := h1.setCh (a := a) (c := c.setCh (some s.chans.length)) (List.getElem?_set_self (List.getElem?_eq_some_iff.1 hc).1)
            (sl' := s.txn.trackChnSlice ++ [s.chans.length]) fun j hj => by
              rcases List.mem_append.1 hj with h | h
              · exact Or.inl h
              · rw [List.mem_singleton] at h; subst h; exact Or.inr (Cell.ch_setCh _ _)
          rw [Cell.setCh_setCh, List.set_set] at h2
          exact h2
  · exact hl

end Art
