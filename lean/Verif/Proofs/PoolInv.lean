import Verif.Proofs.Pair4
/-
Goroutines in a pool, next to the same goroutines run alone: the invariant of a schedule.
-/
set_option autoImplicit false
set_option linter.unusedVariables false
set_option linter.unusedSimpArgs false
set_option linter.unusedSectionVars false
namespace Art
variable {V : Type} {α β : Type} {σ : Addr → Addr}

/-! ### Channels -/

section
variable [Lim]

theorem CRel.setChL {c c' : Cell V} (h : CRel σ c c') {x : ChanId} (hx : Lim.limit ≤ x) : CRel σ (c.setCh (some x)) c' := by
  cases h with
  | leaf l k => exact .leaf { l with ch := some x } ⟨k, .big hx _⟩
  | inner n k => exact .inner { n with ch := some x } ⟨k, .big hx _⟩

theorem CRel.setChR {c c' : Cell V} (h : CRel σ c c') (x : Option ChanId) (hx : ChKin c.ch x) : CRel σ c (c'.setCh x) := by
  cases h with
  | leaf l k => exact .leaf l ⟨x, hx⟩
  | inner n k => exact .inner n ⟨x, hx⟩

/-- Without channels to compare. -/
theorem ChKin.free (h : Lim.limit = 0) (x y : Option ChanId) : ChKin x y := fun c _ hc => absurd hc (by rw [h]; exact Nat.not_lt_zero c)
end

theorem setChan_length (h : Heap V) (a : Addr) (k : ChanId) : (setChan h a k).length = h.length := by
  obtain ⟨c, e⟩ := setChan_set h a k
  rw [e, List.length_set]

theorem setChan_get (h : Heap V) (a : Addr) (k : ChanId) (b : Addr) :
    (setChan h a k)[b]? = h[b]? ∨ ∃ c, h[b]? = some c ∧ (setChan h a k)[b]? = some (c.setCh (some k)) := by
  unfold setChan
  cases hc : h[a]? with
  | none => exact .inl rfl
  | some c =>
    by_cases e : a = b
    · subst e
      obtain ⟨h1, _⟩ := List.getElem?_eq_some_iff.1 hc
      exact .inr ⟨c, hc, by simp [h1]⟩
    · exact .inl (List.getElem?_set_ne e)

section
variable [Lim]

theorem HRel.chanL {h H : Heap V} (hr : HRel σ h H) (a : Addr) {k : ChanId} (hk : Lim.limit ≤ k) : HRel σ (setChan h a k) H := by
  intro b
  have h1 := hr b
  rcases setChan_get h a k b with e | ⟨c, e1, e2⟩
  · rw [e]; exact h1
  · rw [e2]; rw [e1] at h1
    generalize H[σ b]? = o at h1
    cases h1 with
    | some hc => exact .some (hc.setChL hk)

theorem setChan_ne (h : Heap V) {a b : Addr} (k : ChanId) (e : a ≠ b) : (setChan h a k)[b]? = h[b]? := by
  unfold setChan
  cases h[a]? with
  | none => rfl
  | some c => exact List.getElem?_set_ne e

/-- A channel for a node that has none, or for one whose channel is not compared. -/
theorem HRel.chanR {h H : Heap V} (hr : HRel σ h H) (a : Addr) (k : ChanId) (ha : chanOf H a = none ∨ Lim.limit = 0) : HRel σ h (setChan H a k) := by
  intro b
  have h1 := hr b
  by_cases e : a = σ b
  · subst e
    rcases setChan_get H (σ b) k (σ b) with e | ⟨c, e1, e2⟩
    · rw [e]; exact h1
    · rw [e2]; rw [e1] at h1
      generalize h[b]? = o at h1
      cases h1 with
      | some hc =>
        refine .some (hc.setChR _ ?_)
        rcases ha with ha | ha
        · have h2 := hc.kin
          unfold chanOf at ha
          rw [e1] at ha
          exact fun d hd hl => nomatch (show c.ch = none from ha) ▸ h2 d hd hl
        · exact .free ha _ _
  · rw [setChan_ne H k e]; exact h1

/-- Both get a new channel. -/
theorem HRel.chanLR {h H : Heap V} (hr : HRel σ h H) (hσ : ∀ a b, σ a = σ b → a = b) (a : Addr) {k : ChanId} (hk : Lim.limit ≤ k) (k' : ChanId) :
    HRel σ (setChan h a k) (setChan H (σ a) k') := by
  intro b
  by_cases e : a = b
  · subst e
    have h1 := hr a
    unfold setChan
    cases hc : h[a]? with
    | none =>
      rw [hc] at h1
      generalize hH : H[σ a]? = o at h1
      cases h1 with
      | none => dsimp only; rw [hc, hH]; exact .none
    | some c =>
      rw [hc] at h1
      generalize hH : H[σ a]? = o at h1
      cases h1 with
      | @some _ c' h2 =>
        dsimp only
        rw [List.getElem?_set_self (List.getElem?_eq_some_iff.1 hc).1, List.getElem?_set_self (List.getElem?_eq_some_iff.1 hH).1]
        exact .some ((h2.setChL hk).setChR _ (by cases c <;> exact .big hk _))
  · rw [setChan_ne h k e, setChan_ne H k' fun e' => e (hσ _ _ e')]
    exact hr b
end

theorem casChan_length (h : Heap V) (a : Addr) (k : ChanId) : (casChan h a k).length = h.length := by
  unfold casChan
  split
  · exact setChan_length ..
  · rfl

theorem HRel.casL [Lim] {h H : Heap V} (hr : HRel σ h H) (a : Addr) {k : ChanId} (hk : Lim.limit ≤ (chanOf h a).getD k) : HRel σ (casChan h a k) H := by
  unfold casChan
  cases hc : chanOf h a with
  | none => rw [hc] at hk; exact hr.chanL a hk
  | some c => exact hr

/-! ### Inverting `Pair` -/

section
variable [Lim] {Q : α → β → Prop}

theorem Pair.makeL_inv {k : ChanId → Code V α} {p' : Code V β} (h : Pair σ Q (.make k) p') (c : ChanId) (hc : Lim.limit ≤ c) : Pair σ Q (k c) p' := by
  generalize hp : Code.make k = p at h
  induction h with
  | makeL h ih => cases hp; exact h c hc
  | makeR h ih => exact .makeR fun x => ih x hp
  | claimR h ih => exact .claimR fun x => ih x hp
  | loadR h ih => exact .loadR fun x => ih x hp
  | testR h ih => exact .testR fun x => ih x hp
  | shutR h ih => exact .shutR (ih hp)
  | _ => cases hp

theorem Pair.makeR_inv {p : Code V α} {k' : ChanId → Code V β} (h : Pair σ Q p (.make k')) (c : ChanId) : Pair σ Q p (k' c) := by
  generalize hp : Code.make k' = p' at h
  induction h with
  | fuel p' => exact .fuel _
  | makeR h ih => cases hp; exact h c
  | makeL h ih => exact .makeL fun x hx => ih x hx hp
  | claimL h ih => exact .claimL fun x hx => ih x hx hp
  | loadL h ih => exact .loadL fun x hx => ih x hx hp
  | testL h ih => exact .testL fun x => ih x hp
  | shutL h ih => exact .shutL (ih hp)
  | _ => cases hp

theorem Pair.claimL_inv {a : Addr} {ch : ChanId} {k : ChanId → Code V α} {p' : Code V β} (h : Pair σ Q (.claim a ch k) p') (c : ChanId) (hc : Lim.limit ≤ c) : Pair σ Q (k c) p' := by
  generalize hp : Code.claim a ch k = p at h
  induction h with
  | claimL h ih => cases hp; exact h c hc
  | makeR h ih => exact .makeR fun x => ih x hp
  | claimR h ih => exact .claimR fun x => ih x hp
  | loadR h ih => exact .loadR fun x => ih x hp
  | testR h ih => exact .testR fun x => ih x hp
  | shutR h ih => exact .shutR (ih hp)
  | _ => cases hp

theorem Pair.loadL_inv {a : Addr} {ch : ChanId} {k : ChanId → Code V α} {p' : Code V β} (h : Pair σ Q (.load a ch k) p') (c : ChanId) (hc : Lim.limit ≤ c) : Pair σ Q (k c) p' := by
  generalize hp : Code.load a ch k = p at h
  induction h with
  | loadL h ih => cases hp; exact h c hc
  | makeR h ih => exact .makeR fun x => ih x hp
  | claimR h ih => exact .claimR fun x => ih x hp
  | loadR h ih => exact .loadR fun x => ih x hp
  | testR h ih => exact .testR fun x => ih x hp
  | shutR h ih => exact .shutR (ih hp)
  | _ => cases hp

theorem Pair.testL_inv {t : ChanId} {k : Bool → Code V α} {p' : Code V β} (h : Pair σ Q (.test t k) p') (c : Bool) : Pair σ Q (k c) p' := by
  generalize hp : Code.test t k = p at h
  induction h with
  | testL h ih => cases hp; exact h c
  | makeR h ih => exact .makeR fun x => ih x hp
  | claimR h ih => exact .claimR fun x => ih x hp
  | loadR h ih => exact .loadR fun x => ih x hp
  | testR h ih => exact .testR fun x => ih x hp
  | shutR h ih => exact .shutR (ih hp)
  | _ => cases hp

theorem Pair.shutL_inv {t : ChanId} {k : Code V α} {p' : Code V β} (h : Pair σ Q (.shut t k) p') : Pair σ Q k p' := by
  generalize hp : Code.shut t k = p at h
  induction h with
  | shutL h ih => cases hp; exact h
  | makeR h ih => exact .makeR fun x => ih x hp
  | claimR h ih => exact .claimR fun x => ih x hp
  | loadR h ih => exact .loadR fun x => ih x hp
  | testR h ih => exact .testR fun x => ih x hp
  | shutR h ih => exact .shutR (ih hp)
  | _ => cases hp

theorem Pair.claimR_inv {p : Code V α} {a : Addr} {ch : ChanId} {k' : ChanId → Code V β} (h : Pair σ Q p (.claim a ch k')) (c : ChanId) : Pair σ Q p (k' c) := by
  generalize hp : Code.claim a ch k' = p' at h
  induction h with
  | fuel p' => exact .fuel _
  | claimR h ih => cases hp; exact h c
  | makeL h ih => exact .makeL fun x hx => ih x hx hp
  | claimL h ih => exact .claimL fun x hx => ih x hx hp
  | loadL h ih => exact .loadL fun x hx => ih x hx hp
  | testL h ih => exact .testL fun x => ih x hp
  | shutL h ih => exact .shutL (ih hp)
  | _ => cases hp

theorem Pair.loadR_inv {p : Code V α} {a : Addr} {ch : ChanId} {k' : ChanId → Code V β} (h : Pair σ Q p (.load a ch k')) (c : ChanId) : Pair σ Q p (k' c) := by
  generalize hp : Code.load a ch k' = p' at h
  induction h with
  | fuel p' => exact .fuel _
  | loadR h ih => cases hp; exact h c
  | makeL h ih => exact .makeL fun x hx => ih x hx hp
  | claimL h ih => exact .claimL fun x hx => ih x hx hp
  | loadL h ih => exact .loadL fun x hx => ih x hx hp
  | testL h ih => exact .testL fun x => ih x hp
  | shutL h ih => exact .shutL (ih hp)
  | _ => cases hp

theorem Pair.testR_inv {p : Code V α} {t : ChanId} {k' : Bool → Code V β} (h : Pair σ Q p (.test t k')) (c : Bool) : Pair σ Q p (k' c) := by
  generalize hp : Code.test t k' = p' at h
  induction h with
  | fuel p' => exact .fuel _
  | testR h ih => cases hp; exact h c
  | makeL h ih => exact .makeL fun x hx => ih x hx hp
  | claimL h ih => exact .claimL fun x hx => ih x hx hp
  | loadL h ih => exact .loadL fun x hx => ih x hx hp
  | testL h ih => exact .testL fun x => ih x hp
  | shutL h ih => exact .shutL (ih hp)
  | _ => cases hp

theorem Pair.shutR_inv {p : Code V α} {t : ChanId} {k' : Code V β} (h : Pair σ Q p (.shut t k')) : Pair σ Q p k' := by
  generalize hp : Code.shut t k' = p' at h
  induction h with
  | fuel p' => exact .fuel _
  | shutR h ih => cases hp; exact h
  | makeL h ih => exact .makeL fun x hx => ih x hx hp
  | claimL h ih => exact .claimL fun x hx => ih x hx hp
  | loadL h ih => exact .loadL fun x hx => ih x hx hp
  | testL h ih => exact .testL fun x => ih x hp
  | shutL h ih => exact .shutL (ih hp)
  | _ => cases hp
end

/-- The next step does not concern channels, or it sets the channel of a node. -/
def Code.quiet : Code V α → Prop
  | .make _ => False
  | .claim .. => False
  | .load .. => False
  | .test .. => False
  | .shut .. => False
  | _ => True

section
variable [Lim]

/-- The code, run alone from `s` on, makes channels that are not compared, finds no compared ones when it is about to set one,
and closes only those that it tracks. -/
def Code.Firm : Code V α → St V → Prop
  | .done _, _ => True
  | .look k, s => (k s).Firm s
  | .read a k, s => (k s.heap[a]?).Firm s
  | .write a c k, s => k.Firm { s with heap := s.heap.set a c }
  | .store a ch k, s => k.Firm { s with heap := setChan s.heap a ch }
  | .alloc c k, s => (k s.heap.length).Firm { s with heap := s.heap ++ [c] }
  | .make k, s => Lim.limit ≤ s.chans.length ∧ (k s.chans.length).Firm { s with chans := s.chans ++ [false] }
  | .own f k, s => (k (f s.txn)).Firm { s with txn := f s.txn }
  | .claim a ch k, s => Lim.limit ≤ (chanOf s.heap a).getD ch ∧ (k ((chanOf s.heap a).getD ch)).Firm { s with heap := casChan s.heap a ch }
  | .load a ch k, s => Lim.limit ≤ (chanOf s.heap a).getD ch ∧ (k ((chanOf s.heap a).getD ch)).Firm s
  | .test c k, s => (k (s.chans[c]? == some true)).Firm s
  | .shut c k, s => c ∈ s.txn.trackChnSlice ∧ k.Firm { s with chans := s.chans.set c true }

/-- The compared channels that are tracked or closed have the mark. -/
def St.Marked (s : St V) : Prop := ∀ c : ChanId, c < Lim.limit → c ∈ s.txn.trackChnSlice ∨ s.chans[c]? = some true → Lim.mark c

theorem St.Marked.make {s : St V} (h : s.Marked) : St.Marked { s with chans := s.chans ++ [false] } := fun c hl hc => by
  refine h c hl (hc.imp_right fun hc => ?_)
  rcases Nat.lt_or_ge c s.chans.length with h1 | h1
  · rw [List.getElem?_append_left h1] at hc; exact hc
  · rw [List.getElem?_append_right h1] at hc
    have := List.mem_of_getElem? hc
    simp at this

theorem St.Marked.shut {s : St V} (h : s.Marked) {c : ChanId} (hc : c ∈ s.txn.trackChnSlice) : St.Marked { s with chans := s.chans.set c true } := fun d hl hd => by
  by_cases e : c = d
  · subst e; exact h c hl (.inl hc)
  · exact h d hl (hd.imp_right fun hd => by rw [List.getElem?_set_ne e] at hd; exact hd)

/-- Make, claim and close channels, up to the next step that does something else. -/
theorem Code.settle (p : Code V α) (s : St V) (hf : p.Firm s) (hm : s.Marked) : ∃ (p2 : Code V α) (s2 : St V), p2.quiet ∧ p2.run s2 = p.run s ∧
    (∀ w ∈ p2.seen s2, w ∈ p.seen s) ∧ s2.txn = s.txn ∧ s2.heap.length = s.heap.length ∧
    (∀ (σ : Addr → Addr) (H : Heap V), HRel σ s.heap H → HRel σ s2.heap H) ∧
    (∀ (σ : Addr → Addr) (Q : α → α → Prop) (p' : Code V α), Pair σ Q p p' → Pair σ Q p2 p') ∧ p2.Firm s2 ∧ s2.Marked := by
  induction p generalizing s with
  | make k ih =>
    obtain ⟨p2, s2, h1, h2, h3, h4, h5, h6, h7, h8⟩ := ih s.chans.length { s with chans := s.chans ++ [false] } hf.2 hm.make
    exact ⟨p2, s2, h1, h2, h3, h4, h5, h6, fun σ Q p' h => h7 σ Q p' (h.makeL_inv _ hf.1), h8⟩
  | store a ch k _ => exact ⟨.store a ch k, s, trivial, rfl, fun _ h => h, rfl, rfl, fun _ _ h => h, fun _ _ _ h => h, hf, hm⟩
  | done r => exact ⟨.done r, s, trivial, rfl, fun _ h => h, rfl, rfl, fun _ _ h => h, fun _ _ _ h => h, hf, hm⟩
  | look k _ => exact ⟨.look k, s, trivial, rfl, fun _ h => h, rfl, rfl, fun _ _ h => h, fun _ _ _ h => h, hf, hm⟩
  | read a k _ => exact ⟨.read a k, s, trivial, rfl, fun _ h => h, rfl, rfl, fun _ _ h => h, fun _ _ _ h => h, hf, hm⟩
  | write a c k _ => exact ⟨.write a c k, s, trivial, rfl, fun _ h => h, rfl, rfl, fun _ _ h => h, fun _ _ _ h => h, hf, hm⟩
  | alloc c k _ => exact ⟨.alloc c k, s, trivial, rfl, fun _ h => h, rfl, rfl, fun _ _ h => h, fun _ _ _ h => h, hf, hm⟩
  | own f k _ => exact ⟨.own f k, s, trivial, rfl, fun _ h => h, rfl, rfl, fun _ _ h => h, fun _ _ _ h => h, hf, hm⟩
  | claim a ch k ih =>
    obtain ⟨p2, s2, h1, h2, h3, h4, h5, h6, h7, h8⟩ := ih ((chanOf s.heap a).getD ch) { s with heap := casChan s.heap a ch } hf.2 hm
    exact ⟨p2, s2, h1, h2, fun w hw => List.mem_append_right _ (h3 w hw), h4, h5.trans (casChan_length ..),
      fun σ H h => h6 σ H (h.casL a hf.1), fun σ Q p' h => h7 σ Q p' (h.claimL_inv _ hf.1), h8⟩
  | load a ch k ih =>
    obtain ⟨p2, s2, h1, h2, h3, h4, h5, h6, h7, h8⟩ := ih ((chanOf s.heap a).getD ch) s hf.2 hm
    exact ⟨p2, s2, h1, h2, h3, h4, h5, h6, fun σ Q p' h => h7 σ Q p' (h.loadL_inv _ hf.1), h8⟩
  | test c k ih =>
    obtain ⟨p2, s2, h1, h2, h3, h4, h5, h6, h7, h8⟩ := ih (s.chans[c]? == some true) s hf hm
    exact ⟨p2, s2, h1, h2, h3, h4, h5, h6, fun σ Q p' h => h7 σ Q p' (h.testL_inv _), h8⟩
  | shut c k ih =>
    obtain ⟨p2, s2, h1, h2, h3, h4, h5, h6, h7, h8⟩ := ih { s with chans := s.chans.set c true } hf.2 (hm.shut hf.1)
    exact ⟨p2, s2, h1, h2, h3, h4, h5, h6, fun σ Q p' h => h7 σ Q p' h.shutL_inv, h8⟩
end

/-! ### Renamings -/

/-- `σ` takes the nodes that there are when the goroutine is alone, `0` to `A.length - 1`, to the nodes `A` of the pool; the
rest goes beyond `N`. -/
structure Renames (A : List Addr) (N : Nat) (σ : Addr → Addr) : Prop where
  inj : ∀ a b, σ a = σ b → a = b
  mine : ∀ (j : Nat) (x : Addr), A[j]? = some x → σ j = x
  rest : ∀ a, A.length ≤ a → N ≤ σ a

theorem Renames.exists {N : Nat} {A : List Addr} (hn : A.Nodup) (hr : ∀ x ∈ A, x < N) : ∃ σ, Renames A N σ := by
  refine ⟨fun a => match A[a]? with | some x => x | none => N + a, ?_, ?_, ?_⟩
  · intro a b h
    have hm : ∀ (i : Nat) (x : Addr), A[i]? = some x → x ∈ A := fun i x h => List.mem_of_getElem? h
    cases ha : A[a]? with
    | some x =>
      rw [ha] at h
      have h3 := hr x (hm _ _ ha)
      cases hb : A[b]? with
      | some y =>
        rw [hb] at h
        dsimp only at h
        subst h
        obtain ⟨i1, e1⟩ := List.getElem?_eq_some_iff.1 ha
        obtain ⟨i2, e2⟩ := List.getElem?_eq_some_iff.1 hb
        exact (List.getElem_inj hn).1 (e1.trans e2.symm)
      | none => rw [hb] at h; dsimp only at h; omega
    | none =>
      rw [ha] at h
      cases hb : A[b]? with
      | some y => rw [hb] at h; have := hr y (hm _ _ hb); dsimp only at h; omega
      | none => rw [hb] at h; dsimp only at h; omega
  · intro j x h
    rw [h]
  · intro a h
    have h2 : A[a]? = none := List.getElem?_eq_none_iff.2 h
    simp only [h2]
    omega

theorem Renames.le {N N' : Nat} {A : List Addr} (h : Renames A N' σ) (hN : N ≤ N') : Renames A N σ :=
  ⟨h.inj, h.mine, fun a ha => Nat.le_trans hN (h.rest a ha)⟩

theorem Renames.pop {N : Nat} {A : List Addr} (h : Renames (A ++ [N]) (N + 1) σ) : Renames A N σ where
  inj := h.inj
  mine := fun j x hx => h.mine j x (by rw [List.getElem?_append_left (List.getElem?_eq_some_iff.1 hx).1]; exact hx)
  rest := fun a ha => by
    by_cases e : a = A.length
    · rw [e, h.mine A.length N (by simp)]
      exact Nat.le_refl _
    · exact Nat.le_of_succ_le (h.rest a (by simp only [List.length_append, List.length_cons, List.length_nil]; omega))

/-- Where a node goes: into `A` or beyond. -/
theorem Renames.cases {N : Nat} {A : List Addr} (h : Renames A N σ) (b : Addr) : A[b]? = some (σ b) ∨ (A.length ≤ b ∧ N ≤ σ b) := by
  cases hb : A[b]? with
  | some x => exact .inl (by rw [h.mine _ _ hb])
  | none => exact .inr ⟨List.getElem?_eq_none_iff.1 hb, h.rest b (List.getElem?_eq_none_iff.1 hb)⟩

theorem mem_drop_of_getElem? {A : List Addr} {n b x : Nat} (h : A[b]? = some x) (hn : n ≤ b) : x ∈ A.drop n := by
  refine List.mem_of_getElem? (i := b - n) ?_
  rw [List.getElem?_drop, show n + (b - n) = b by omega]
  exact h

/-! ### One goroutine -/

/-- The goroutine `p` of the pool with memory `H` follows the goroutine that, alone, would end with `r`; it writes to nodes
from `n0` on. -/
structure Mirrors (lim : Lim) (n0 : Nat) (r : R α × St V) (Q : (Addr → Addr) → α → α → Prop) (H : Heap V) (A : List Addr) (p : Proc V α)
    (c : Code V α) (s : St V) : Prop where
  run : c.run s = r
  seen : ∀ w ∈ c.seen s, w.chan = false → n0 ≤ w.addr
  size : s.heap.length = A.length
  len : s.heap.length ≤ H.length
  view : ∀ v, p.view = some v → s.heap.length ≤ v.length ∧ ∃ k, p.code = .look k
  pair : ∀ σ, Renames A H.length σ → Pair σ (Q σ) c p.code
  heap : ∀ σ, Renames A H.length σ → HRel σ s.heap H
  txn : ∀ σ, Renames A H.length σ → TRel σ s.txn p.txn
  vheap : ∀ σ, Renames A H.length σ → ∀ v, p.view = some v → HRel σ s.heap v
  firm : c.Firm s
  marked : s.Marked

section
variable {lim : Lim} {n0 : Nat} {r : R α × St V} {Q : (Addr → Addr) → α → α → Prop} {H : Heap V} {A : List Addr} {p : Proc V α} {c : Code V α} {s : St V}

theorem Mirrors.settle (h : Mirrors lim n0 r Q H A p c s) : ∃ c2 s2, c2.quiet ∧ Mirrors lim n0 r Q H A p c2 s2 := by
  obtain ⟨c2, s2, h1, h2, h3, h4, h5, h6, h7, h8, h9⟩ := c.settle s h.firm h.marked
  exact ⟨c2, s2, h1, h2.trans h.run, fun w hw => h.seen w (h3 w hw), h5.trans h.size, h5 ▸ h.len, fun v hv => h5 ▸ h.view v hv,
    fun σ hσ => h7 _ _ _ (h.pair σ hσ), fun σ hσ => h6 _ _ (h.heap σ hσ), fun σ hσ => h4 ▸ h.txn σ hσ, fun σ hσ v hv => h6 _ _ (h.vheap σ hσ v hv), h8, h9⟩

/-- How a step of a goroutine changes memory, and the list of its nodes.  `S`: it may replace channels. -/
inductive Moves (S : Prop) (n0 : Nat) (H : Heap V) (A : List Addr) : Heap V → List Addr → Prop
  | same : Moves S n0 H A H A
  | chan (a : Addr) (k : ChanId) (h : chanOf H a = none ∨ S) : Moves S n0 H A (setChan H a k) A
  | write (x : Addr) (c : Cell V) (hx : x ∈ A.drop n0 ∨ H.length ≤ x) : Moves S n0 H A (H.set x c) A
  | alloc (c : Cell V) : Moves S n0 H A (H ++ [c]) (A ++ [H.length])

theorem Moves.len {S : Prop} {H' : Heap V} {A' : List Addr} (h : Moves S n0 H A H' A') : H.length ≤ H'.length := by
  cases h with
  | same => exact Nat.le_refl _
  | chan a k h => rw [setChan_length]; exact Nat.le_refl _
  | write x c hx => rw [List.length_set]; exact Nat.le_refl _
  | alloc c => simp

theorem HRel.same {h H' : Heap V} (hr : HRel σ h H) (he : ∀ b, H'[σ b]? = H[σ b]?) : HRel σ h H' := fun b => he b ▸ hr b

/-- The other goroutines do not notice. -/
theorem Mirrors.other {S : Prop} {H' : Heap V} {n1 : Nat} {A1 A1' : List Addr} (h : Mirrors lim n0 r Q H A p c s) (hm : Moves S n1 H A1 H' A1')
    (hS : S → Lim.limit = 0) (hL : ∀ x ∈ A, x < H.length) (hd : ∀ x ∈ A1.drop n1, x ∉ A) : Mirrors lim n0 r Q H' A p c s where
  run := h.run
  seen := h.seen
  size := h.size
  len := Nat.le_trans h.len hm.len
  view := h.view
  pair := fun σ hσ => h.pair σ (hσ.le hm.len)
  txn := fun σ hσ => h.txn σ (hσ.le hm.len)
  vheap := fun σ hσ => h.vheap σ (hσ.le hm.len)
  firm := h.firm
  marked := h.marked
  heap := fun σ hσ => by
    have hσ' := hσ.le hm.len
    have hr := h.heap σ hσ'
    cases hm with
    | same => exact hr
    | chan a k ha => exact hr.chanR a k (ha.imp_right hS)
    | write x c hx =>
      refine hr.same fun b => ?_
      by_cases e : x = σ b
      · subst e
        rcases hx with hx | hx
        · rcases hσ'.cases b with k2 | ⟨k1, k2⟩
          · exact absurd (List.mem_of_getElem? k2) (hd _ hx)
          · rw [List.set_eq_of_length_le k2]
        · rw [List.set_eq_of_length_le hx]
      · exact List.getElem?_set_ne e
    | alloc c =>
      refine hr.same fun b => ?_
      have hlt : σ b < H.length → (H ++ [c])[σ b]? = H[σ b]? := fun h => List.getElem?_append_left h
      rcases hσ.cases b with k2 | ⟨k1, k2⟩
      · exact hlt (hL _ (List.mem_of_getElem? k2))
      · rw [List.getElem?_eq_none_iff.2 k2, List.getElem?_eq_none_iff.2 (by simp only [List.length_append, List.length_cons, List.length_nil] at k2; omega)]

/-! ### A step of the goroutine itself -/

theorem Mirrors.own (h : Mirrors lim n0 r Q H A p c s) (hq : c.quiet) (hr : r.1 ≠ .error .fuel) (hn : A.Nodup)
    (hL : ∀ x ∈ A, x < H.length) (cs : List Bool)
    (hD : ∀ d ∈ (p.step H cs).2.2.txn.trackChnSlice, d < Lim.limit → Lim.mark d) :
    ∃ A' c' s', Moves (∃ a ch k, p.code = .store a ch k) n0 H A (p.step H cs).1 A' ∧ Mirrors lim n0 r Q (p.step H cs).1 A' (p.step H cs).2.2 c' s' := by
  obtain ⟨σ0, h0⟩ := Renames.exists hn hL
  have hf : c ≠ .done (.error .fuel) := fun e => hr (by rw [← h.run, e]; rfl)
  have hP := h.pair
  obtain ⟨code, txn, view⟩ := p
  have hv : ∀ v, view = some v → ∃ k, code = .look k := fun v e => (h.view v e).2
  have hV : (∀ k, code ≠ .look k) → view = none := fun hne => by
    cases view with
    | none => rfl
    | some v => obtain ⟨k, e⟩ := hv v rfl; exact absurd e (hne k)
  dsimp only at hP
  cases code with
  | done x => exact ⟨A, c, s, .same, h⟩
  | look k' =>
    cases view with
    | none =>
      exact ⟨A, c, s, .same, h.run, h.seen, h.size, h.len, fun v e => by cases e; exact ⟨h.len, k', rfl⟩, h.pair, h.heap, h.txn,
        fun σ hσ v e => by cases e; exact h.heap σ hσ, h.firm, h.marked⟩
    | some v =>
      cases hc : c with
      | done x => subst hc; cases hP σ0 h0; exact absurd rfl hf
      | make | claim | load | test | shut => subst hc; exact hq.elim
      | look k =>
        subst hc
        refine ⟨A, k s, s, .same, h.run, h.seen, h.size, h.len, fun v e => (nomatch e), fun σ hσ => ?_, h.heap, h.txn, fun σ hσ v e => (nomatch e), h.firm, h.marked⟩
        cases hP σ hσ with
        | look hk => exact hk _ _ ⟨h.vheap σ hσ v rfl, (h.view v rfl).1, h.txn σ hσ⟩
      | _ => subst hc; cases hP σ0 h0
  | read a' k' =>
    cases hV (fun _ => nofun)
    cases hc : c with
    | done x => subst hc; cases hP σ0 h0; exact absurd rfl hf
    | make | claim | load | test | shut => subst hc; exact hq.elim
    | read a k =>
      subst hc
      refine ⟨A, k s.heap[a]?, s, .same, h.run, h.seen, h.size, h.len, fun v e => (nomatch e), fun σ hσ => ?_, h.heap, h.txn, fun σ hσ v e => (nomatch e), h.firm, h.marked⟩
      cases hP σ hσ with
      | read hk => exact hk _ _ (h.heap σ hσ a)
    | _ => subst hc; cases hP σ0 h0
  | write a' c' k' =>
    cases hV (fun _ => nofun)
    dsimp only [Proc.step]
    cases hc : c with
    | done x => subst hc; cases hP σ0 h0; exact absurd rfl hf
    | make | claim | load | test | shut => subst hc; exact hq.elim
    | write a cc k =>
      subst hc
      have ha : n0 ≤ a := h.seen _ (List.mem_cons_self ..) rfl
      refine ⟨A, k, { s with heap := s.heap.set a cc }, .write a' c' ?_, h.run, fun w hw => h.seen w (List.mem_cons_of_mem _ hw),
        by rw [← h.size]; exact List.length_set, by simp only [List.length_set]; exact h.len, fun v e => (nomatch e), fun σ hσ => ?_, fun σ hσ => ?_,
        fun σ hσ => h.txn σ (by rw [List.length_set] at hσ; exact hσ), fun σ hσ v e => (nomatch e), h.firm, h.marked⟩
      · have e : a' = σ0 a := by cases hP σ0 h0; rfl
        subst e
        rcases h0.cases a with k2 | ⟨k1, k2⟩
        · exact .inl (mem_drop_of_getElem? k2 ha)
        · exact .inr k2
      · rw [List.length_set] at hσ
        cases hP σ hσ with
        | write hc hk => exact hk
      · rw [List.length_set] at hσ
        cases hP σ hσ with
        | write hc hk =>
          intro b
          have hb := h.heap σ hσ b
          by_cases e : a = b
          · subst e
            rw [List.getElem?_set_self', List.getElem?_set_self']
            generalize s.heap[a]? = o at hb ⊢
            generalize H[σ a]? = o' at hb ⊢
            cases hb with
            | none => exact .none
            | some _ => exact .some hc
          · rw [List.getElem?_set_ne e, List.getElem?_set_ne (fun e' => e (hσ.inj _ _ e'))]
            exact hb
    | _ => subst hc; cases hP σ0 h0
  | alloc c' k' =>
    cases hV (fun _ => nofun)
    dsimp only [Proc.step]
    cases hc : c with
    | done x => subst hc; cases hP σ0 h0; exact absurd rfl hf
    | make | claim | load | test | shut => subst hc; exact hq.elim
    | alloc cc k =>
      subst hc
      have hl : (H ++ [c']).length = H.length + 1 := by simp
      refine ⟨A ++ [H.length], k s.heap.length, { s with heap := s.heap ++ [cc] }, .alloc c', h.run, fun w hw => h.seen w (List.mem_cons_of_mem _ hw),
        by simp only [List.length_append, List.length_cons, List.length_nil, h.size],
        by simp only [List.length_append, List.length_cons, List.length_nil]; exact Nat.succ_le_succ h.len, fun v e => (nomatch e), fun σ hσ => ?_, fun σ hσ => ?_,
        fun σ hσ => h.txn σ (by rw [hl] at hσ; exact hσ.pop), fun σ hσ v e => (nomatch e), h.firm, h.marked⟩
      · rw [hl] at hσ
        have e : σ s.heap.length = H.length := by rw [h.size]; exact hσ.mine A.length H.length (by simp)
        cases hP σ hσ.pop with
        | alloc hc hk => exact e ▸ hk s.heap.length
      · rw [hl] at hσ
        have e : σ s.heap.length = H.length := by rw [h.size]; exact hσ.mine A.length H.length (by simp)
        cases hP σ hσ.pop with
        | alloc hc hk =>
          intro b
          have hb := h.heap σ hσ.pop b
          rcases Nat.lt_trichotomy b s.heap.length with k1 | k1 | k1
          · rw [List.getElem?_append_left k1]
            have : σ b < H.length := by
              rw [List.getElem?_eq_getElem k1] at hb
              generalize hH : H[σ b]? = o' at hb
              cases hb with
              | some _ => exact (List.getElem?_eq_some_iff.1 hH).1
            rw [List.getElem?_append_left this]
            exact hb
          · subst k1
            rw [e, List.getElem?_concat_length, List.getElem?_concat_length]
            exact .some hc
          · have h2 : H.length + 1 ≤ σ b := hσ.rest b (by simp only [List.length_append, List.length_cons, List.length_nil]; have := h.size; omega)
            rw [List.getElem?_eq_none_iff.2 (by simp; omega), List.getElem?_eq_none_iff.2 (by simp; omega)]
            exact .none
    | _ => subst hc; cases hP σ0 h0
  | make k' =>
    cases hV (fun _ => nofun)
    exact ⟨A, c, s, .same, h.run, h.seen, h.size, h.len, fun v e => (nomatch e), fun σ hσ => (hP σ hσ).makeR_inv _, h.heap, h.txn, fun σ hσ v e => (nomatch e), h.firm, h.marked⟩
  | store a' x' k' =>
    cases hV (fun _ => nofun)
    dsimp only [Proc.step]
    cases hc : c with
    | done x => subst hc; cases hP σ0 h0; exact absurd rfl hf
    | make | claim | load | test | shut => subst hc; exact hq.elim
    | store a x k =>
      subst hc
      have hl : (setChan H a' x').length = H.length := setChan_length ..
      have hl' : (setChan s.heap a x).length = s.heap.length := setChan_length ..
      refine ⟨A, k, { s with heap := setChan s.heap a x }, .chan a' x' (.inr ⟨_, _, _, rfl⟩), h.run, fun w hw => h.seen w (List.mem_cons_of_mem _ hw), hl'.trans h.size,
        by rw [hl, hl']; exact h.len, fun v e => (nomatch e), fun σ hσ => ?_, fun σ hσ => ?_, fun σ hσ => h.txn σ (hl ▸ hσ), fun σ hσ v e => (nomatch e), h.firm, h.marked⟩
      · cases hP σ (hl ▸ hσ) with
        | store _ hk => exact hk
      · have hσ' := hl ▸ hσ
        cases hP σ hσ' with
        | store hx hk => exact (h.heap σ hσ').chanLR hσ'.inj a hx x'
    | _ => subst hc; cases hP σ0 h0
  | own f' k' =>
    cases hV (fun _ => nofun)
    cases hc : c with
    | done x => subst hc; cases hP σ0 h0; exact absurd rfl hf
    | make | claim | load | test | shut => subst hc; exact hq.elim
    | own f k =>
      subst hc
      refine ⟨A, k (f s.txn), { s with txn := f s.txn }, .same, h.run, h.seen, h.size, h.len, fun v e => (nomatch e), fun σ hσ => ?_, h.heap, fun σ hσ => ?_, fun σ hσ v e => (nomatch e), h.firm,
        fun d hl hd => ?_⟩
      · cases hP σ hσ with
        | own ht hk => exact hk _ _ (ht _ _ (h.txn σ hσ))
      · cases hP σ hσ with
        | own ht hk => exact ht _ _ (h.txn σ hσ)
      · rcases hd with hd | hd
        · cases hP σ0 h0 with
          | own ht hk =>
            obtain ⟨l, e⟩ := ht _ _ (h.txn σ0 h0)
            refine hD d ?_ hl
            show d ∈ (f' txn).trackChnSlice
            rw [e]
            exact l.2 d hd hl
        · exact h.marked d hl (.inr hd)
    | _ => subst hc; cases hP σ0 h0
  | claim a' x k' =>
    cases hV (fun _ => nofun)
    dsimp only [Proc.step]
    cases hx : chanOf H a' with
    | some y =>
      exact ⟨A, c, s, .same, h.run, h.seen, h.size, h.len, fun v e => (nomatch e), fun σ hσ => .loadR fun x => (hP σ hσ).claimR_inv x, h.heap, h.txn, fun σ hσ v e => (nomatch e), h.firm, h.marked⟩
    | none =>
      have hl : (setChan H a' x).length = H.length := setChan_length ..
      exact ⟨A, c, s, .chan a' x (.inl hx), h.run, h.seen, h.size, hl.symm ▸ h.len, fun v e => (nomatch e), fun σ hσ => (hP σ (hl ▸ hσ)).claimR_inv _,
        fun σ hσ => (h.heap σ (hl ▸ hσ)).chanR _ _ (.inl hx), fun σ hσ => h.txn σ (hl ▸ hσ), fun σ hσ v e => (nomatch e), h.firm, h.marked⟩
  | load a' x k' =>
    cases hV (fun _ => nofun)
    exact ⟨A, c, s, .same, h.run, h.seen, h.size, h.len, fun v e => (nomatch e), fun σ hσ => (hP σ hσ).loadR_inv _, h.heap, h.txn, fun σ hσ v e => (nomatch e), h.firm, h.marked⟩
  | test t k' =>
    cases hV (fun _ => nofun)
    exact ⟨A, c, s, .same, h.run, h.seen, h.size, h.len, fun v e => (nomatch e), fun σ hσ => (hP σ hσ).testR_inv _, h.heap, h.txn, fun σ hσ v e => (nomatch e), h.firm, h.marked⟩
  | shut t k' =>
    dsimp only [Proc.step]
    cases cs[t]? == some true with
    | true => exact ⟨A, c, s, .same, h⟩
    | false =>
      cases hV (fun _ => nofun)
      exact ⟨A, c, s, .same, h.run, h.seen, h.size, h.len, fun v e => (nomatch e), fun σ hσ => (hP σ hσ).shutR_inv, h.heap, h.txn, fun σ hσ v e => (nomatch e), h.firm, h.marked⟩

/-- Looking at one more node. -/
theorem Mirrors.look (h : Mirrors lim n0 r Q H A p c s) (a : Addr) : Mirrors lim n0 r Q H A (p.look H a) c s := by
  obtain ⟨code, txn, view⟩ := p
  unfold Proc.look
  cases view with
  | none => exact h
  | some v =>
    dsimp only
    cases hc : H[a]? with
    | none => exact h
    | some x =>
      refine ⟨h.run, h.seen, h.size, h.len, fun w e => ?_, h.pair, h.heap, h.txn, fun σ hσ w e => ?_, h.firm, h.marked⟩
      · cases e
        rw [List.length_set]
        exact h.view v rfl
      · cases e
        intro b
        have h1 := h.vheap σ hσ v rfl b
        have h2 := h.heap σ hσ b
        by_cases e : a = σ b
        · subst e
          rw [hc] at h2
          rw [List.getElem?_set_self']
          generalize s.heap[b]? = o at h1 h2 ⊢
          generalize v[σ b]? = o' at h1 ⊢
          cases h1 with
          | none => exact .none
          | some _ => exact h2
        · rw [List.getElem?_set_ne e]
          exact h1
end

end Art
