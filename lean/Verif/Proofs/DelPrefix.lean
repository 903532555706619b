import Verif.Proofs.Longest
/-
`deletePrefix` on a well-formed subtree without stale slots: rebuilding a node.
-/
set_option autoImplicit false
set_option linter.unusedVariables false
set_option linter.unusedSimpArgs false
set_option linter.unusedSectionVars false
namespace Art
variable {V : Type} {s s' s'' : St V} {h h' : Heap V} {E : List (Ent V)} {N : List (Key × Addr)} {p P pre : Key} {a c : Addr} {n n' : Inner} {es : Edges}
  {st : Option Addr} {Z : Nat} {X S S' : Addr → Prop}

/-! ### Rebuilding a node -/

theorem heap_set_self {h : Heap V} {a : Addr} {c : Cell V} (ha : h[a]? = some c) : h.set a c = h := by
  apply List.ext_getElem?
  intro i
  rw [List.getElem?_set]
  split
  · rename_i e; subst e; rw [if_pos (lt_of_get ha), ha]
  · rfl

/-- The compaction keeps the slots before `slow`, writes the new children behind them, and skips the removed ones. -/
theorem compactSlots_runs {m : List (Nat × Option Addr)} (k : Nat) : ∀ (itr slow : Nat) (s : St V) (n : Inner), s.heap[a]? = some (.inner n) → slow ≤ itr → itr + k ≤ n.children.length →
    Runs (compactSlots a m k itr slow : M V Nat) s fun r s' => ∃ cs : List (Option Addr), s' = { s with heap := s.heap.set a (.inner { n with children := cs }) } ∧
      cs.length = n.children.length ∧ slow ≤ r ∧ r ≤ slow + k ∧ ∀ os : List (Option Addr), os.length = k → (∀ i, i < k → m.lookup (itr + i) = os[i]?) →
        r = slow + (os.filterMap _root_.id).length ∧ cs.take r = n.children.take slow ++ (os.filterMap _root_.id).map some := by
  induction k with
  | zero =>
    intro itr slow s n ha h1 h2
    refine Runs.pure ⟨n.children, ?_, rfl, Nat.le_refl _, Nat.le_refl _, fun os hos _ => ?_⟩
    · rw [show ({ n with children := n.children } : Inner) = n from rfl, heap_set_self ha]
    · rw [List.length_eq_zero_iff.1 hos]
      simp
  | succ k ih =>
    intro itr slow s n ha h1 h2
    have hstep : ∀ o : Option Addr, (∀ os : List (Option Addr), (∀ i, i < k + 1 → m.lookup (itr + i) = os[i]?) → os[0]? = some o → ∃ c, o = some c) →
        Runs (do setChildAt a slow o; compactSlots a m k (itr + 1) (slow + 1) : M V Nat) s fun r s' => ∃ cs : List (Option Addr), s' = { s with heap := s.heap.set a (.inner { n with children := cs }) } ∧
        cs.length = n.children.length ∧ slow ≤ r ∧ r ≤ slow + (k + 1) ∧ ∀ os : List (Option Addr), os.length = k + 1 → (∀ i, i < k + 1 → m.lookup (itr + i) = os[i]?) → os[0]? = some o →
          r = slow + (os.filterMap _root_.id).length ∧ cs.take r = n.children.take slow ++ (os.filterMap _root_.id).map some := fun o ho => by
      refine Runs.bind (setChildAt_runs ha (by omega) ?_)
      refine Runs.mono (ih (itr + 1) (slow + 1) _ _ (get_set_self (lt_of_get ha)) (by omega) (by simp only [List.length_set]; omega)) ?_
      rintro r s' ⟨cs, h3, h4, h5, h6, h7⟩
      refine ⟨cs, ?_, by rw [h4, List.length_set], by omega, by omega, fun os hos hlk hos0 => ?_⟩
      · rw [h3]; simp only [List.set_set]
      · obtain ⟨c, rfl⟩ := ho os hlk hos0
        cases os with
        | nil => cases hos
        | cons o' os =>
          rw [List.getElem?_cons_zero] at hos0
          cases hos0
          obtain ⟨g1, g2⟩ := h7 os (by simpa using hos) fun i hi => by
            rw [show itr + 1 + i = itr + (i + 1) by omega, hlk (i + 1) (by omega), List.getElem?_cons_succ]
          refine ⟨by rw [g1]; simp; omega, ?_⟩
          rw [g2]
          have hlt : slow < (n.children.set slow (some c)).length := by rw [List.length_set]; omega
          rw [List.take_succ_eq_append_getElem hlt, List.take_set_of_le (Nat.le_refl _), List.getElem_set_self]
          simp
    unfold compactSlots
    cases hl : m.lookup itr with
    | none =>
      simp only
      have hlt : itr < n.children.length := by omega
      have hg : n.getChild (itr : Nat) = .ok (n.children[itr]) ∨ ∃ o, n.getChild (itr : Nat) = .ok o := by
        unfold Inner.getChild
        right
        split
        · split <;> exact ⟨_, rfl⟩
        · rw [if_neg (by omega)]
          simp only [Int.toNat_natCast, List.getElem?_eq_getElem hlt]
          exact ⟨_, rfl⟩
      obtain ⟨o, ho⟩ : ∃ o, n.getChild (itr : Nat) = .ok o := hg.elim (fun h => ⟨_, h⟩) fun h => h
      refine Runs.bind (Runs.innerAt ha (Runs.bind (Runs.lift ho ?_)))
      refine Runs.mono (hstep o fun os hlk h0 => ?_) ?_
      · have := hlk 0 (by omega)
        rw [Nat.add_zero, hl, h0] at this
        cases this
      · rintro r s' ⟨cs, h3, h4, h5, h6, h7⟩
        refine ⟨cs, h3, h4, h5, h6, fun os hos hlk => ?_⟩
        have := hlk 0 (by omega)
        rw [Nat.add_zero, hl] at this
        rw [List.getElem?_eq_getElem (by omega)] at this
        cases this
    | some x =>
      cases x with
      | none =>
        simp only
        refine Runs.mono (ih (itr + 1) slow _ _ ha (by omega) (by omega)) ?_
        rintro r s' ⟨cs, h3, h4, h5, h6, h7⟩
        refine ⟨cs, h3, h4, h5, by omega, fun os hos hlk => ?_⟩
        have h0 := hlk 0 (by omega)
        rw [Nat.add_zero, hl] at h0
        cases os with
        | nil => cases hos
        | cons o os =>
          rw [List.getElem?_cons_zero] at h0
          cases h0
          obtain ⟨g1, g2⟩ := h7 os (by simpa using hos) fun i hi => by
            rw [show itr + 1 + i = itr + (i + 1) by omega, hlk (i + 1) (by omega), List.getElem?_cons_succ]
          exact ⟨by rw [g1]; simp, by rw [g2]; simp⟩
      | some ch =>
        simp only
        refine Runs.mono (hstep (some ch) fun os _ _ => ⟨ch, rfl⟩) ?_
        rintro r s' ⟨cs, h3, h4, h5, h6, h7⟩
        refine ⟨cs, h3, h4, h5, h6, fun os hos hlk => h7 os hos hlk ?_⟩
        have := hlk 0 (by omega)
        rw [Nat.add_zero, hl] at this
        exact this.symm

/-- A node that got new children. -/
structure Rebuilt (n n' : Inner) (m : List (Nat × Option Addr)) : Prop where
  kind : n'.kind = n.kind
  keys : n'.keys = n.keys
  part : n'.part = n.part
  plen : n'.partialLen = n.partialLen
  leaf : n'.leaf = n.leaf
  len : n'.children.length = n.children.length
  num : n'.numChildren.toNat ≤ n.numChildren.toNat
  slots : ∀ os : List (Option Addr), os.length = n.numChildren.toNat → (∀ i, i < os.length → m.lookup i = os[i]?) →
    n'.numChildren.toNat = (os.filterMap _root_.id).length ∧
    n'.children = (os.filterMap _root_.id).map some ++ List.replicate (n.children.length - (os.filterMap _root_.id).length) none

theorem rebuild_runs {m : List (Nat × Option Addr)} (ha : s.heap[a]? = some (.inner n)) (hp : n.part.length = 10) (hl : LeafOK s.heap n.leaf)
    (hnum : n.numChildren.toNat ≤ n.children.length) : Runs (deletePrefixRebuild a m : M V Addr) s fun a' s' => Stp Z (fun x => x = a) s s' ∧
      (a' = a ∨ s.heap.length ≤ a') ∧ ∃ n', s'.heap[a']? = some (.inner n') ∧ Rebuilt n n' m := by
  unfold deletePrefixRebuild
  refine Runs.bind (Runs.mono (writeInner_like (Z := Z) (t := true) ha hp hl) ?_)
  rintro a1 s1 ⟨h1, h2, ⟨k, h3, h4⟩, -, -⟩
  refine Runs.bind (Runs.innerAt h3 (Runs.bind (Runs.mono (compactSlots_runs k.numChildren.toNat 0 0 s1 k h3 (Nat.le_refl _) (by rw [h4.num, h4.children]; omega)) ?_)))
  rintro r s2 ⟨cs, rfl, h5, -, h6, h7⟩
  have hlt := lt_of_get h3
  unfold clearFrom
  refine Runs.bind (Runs.bind (Runs.innerAt (get_set_self hlt) (Runs.wr ?_)))
  simp only [List.set_set]
  refine Runs.bind (Runs.innerAt (get_set_self hlt) (Runs.bind (Runs.wr (Runs.pure ?_))))
  simp only [List.set_set]
  have hr : (UInt8.ofNat r).toNat = r := by
    have := UInt8.toNat_lt k.numChildren
    rw [toNat_ofNat]
    omega
  refine ⟨?_, h2, _, get_set_self hlt, ⟨h4.kind, h4.keys, h4.part, h4.plen, h4.leaf, ?_, ?_, fun os hos hlk => ?_⟩⟩
  · rcases h2 with rfl | h2
    · exact Stp0.then h1 (Stp.wrInner h3 rfl rfl fun _ => Or.inl rfl)
    · refine (Stp.mono (Y := fun x => x = a) h1 (Nat.le_refl _) fun _ _ h => h.elim).trans (Stp.wrInner (X := fun x => x = a1) h3 rfl rfl fun _ => Or.inl rfl) ?_
      rintro x hx rfl
      omega
  · simp only [List.length_append, List.length_take, List.length_replicate]
    rw [h5, h4.children]
    rw [h4.num] at h6
    omega
  · simp only [hr]
    rw [← h4.num]; omega
  · obtain ⟨g1, g2⟩ := h7 os (by rw [h4.num]; exact hos) fun i hi => by rw [Nat.zero_add]; exact hlk i (by rw [hos, ← h4.num]; exact hi)
    simp only [hr]
    rw [Nat.zero_add] at g1
    refine ⟨g1, ?_⟩
    rw [g2, h5, h4.children, ← g1]
    simp

/-! ### Slots of packed nodes -/

theorem all_some {xs : List (Option Addr)} (h : (xs.filterMap _root_.id).length = xs.length) : xs = (xs.filterMap _root_.id).map some := by
  induction xs with
  | nil => rfl
  | cons x xs ih =>
    cases x with
    | none =>
      have := List.length_filterMap_le _root_.id xs
      simp at h
      omega
    | some c =>
      simp only [List.filterMap_cons, _root_.id, List.length_cons, List.map_cons] at h ⊢
      rw [← ih (by omega)]

theorem packed_of {xs : List (Option Addr)} (h : ∀ i, (xs.filterMap _root_.id).length ≤ i → (xs[i]?).getD none = none) :
    xs = (xs.filterMap _root_.id).map some ++ List.replicate (xs.length - (xs.filterMap _root_.id).length) none := by
  have hle := List.length_filterMap_le _root_.id xs
  generalize hk : (xs.filterMap _root_.id).length = k at h hle
  have hd : xs.drop k = List.replicate (xs.length - k) none := by
    refine List.eq_replicate_iff.2 ⟨by simp, fun o ho => ?_⟩
    obtain ⟨i, hi, rfl⟩ := List.getElem_of_mem ho
    rw [List.getElem_drop]
    have := h (k + i) (by omega)
    rw [List.length_drop] at hi
    rw [List.getElem?_eq_getElem (by omega)] at this
    exact this
  have hsplit : xs.filterMap _root_.id = (xs.take k).filterMap _root_.id := by
    conv => lhs; rw [← List.take_append_drop k xs]
    rw [List.filterMap_append, hd, filterMap_nones, List.append_nil]
  have ht : xs.take k = ((xs.take k).filterMap _root_.id).map some := all_some (by rw [← hsplit, hk, List.length_take]; omega)
  conv => lhs; rw [← List.take_append_drop k xs]
  rw [hd, hsplit, ← ht]

/-- The slots of a tidy node are its edges in some order, followed by empty slots. -/
theorem Layout.packed (hL : Layout n es st) (ht : n.Tidy) (hs : n.Small) (hnd : (es.map (·.2)).Nodup) :
    ∃ ds : Edges, ds.Perm es ∧ n.children = (ds.map fun d => some d.2) ++ List.replicate (n.children.length - ds.length) none := by
  obtain ⟨ds, h1, h2, -⟩ := hL.slotEdges ht hnd
  have h3 : (n.children.filterMap _root_.id).length = ds.length := by rw [h2, List.length_map]
  refine ⟨ds, h1, ?_⟩
  have := packed_of (xs := n.children) fun i hi => ht hs i (by rw [hL.num, ← h1.length_eq, ← h3]; exact hi)
  rw [h3, h2, List.map_map] at this
  exact this

theorem Layout.num_le (hL : Layout n es st) : n.numChildren.toNat ≤ n.children.length := by
  have harr : ∀ cap, Arr cap n es st → es.length ≤ n.children.length := fun cap hb => by
    obtain ⟨-, -, ⟨-, -, h2⟩ | ⟨h1, h2⟩⟩ := hb
    · rw [h2]; simp
    · rw [h2]; simp
  rw [hL.num]
  rcases hL.kinds with ⟨hk, hb⟩ | ⟨hk, hb⟩ | ⟨hk, hb, hn⟩ | ⟨hk, hb, hn⟩
  · exact harr 4 hb
  · exact harr 16 hb
  · rw [hb.clen]; exact hb.le
  · have := hL.le
    rw [hb.1]; omega

/-- The children are replaced by other ones in the same slots. -/
theorem Layout.mapAddr (φ : Addr → Addr) (hL : Layout n es st) (hk : n'.kind = n.kind) (hn : n'.numChildren = n.numChildren) (hke : n'.keys = n.keys)
    (hc : n'.children = n.children.map (Option.map φ)) : Layout n' (es.map fun e => (e.1, φ e.2)) (st.map φ) := by
  have hbm : (es.map fun e => (e.1, φ e.2)).map (·.1) = es.map (·.1) := by rw [List.map_map]; rfl
  have harr : ∀ cap, Arr cap n es st → Arr cap n' (es.map fun e => (e.1, φ e.2)) (st.map φ) := by
    rintro cap ⟨h1, ⟨kt, h2⟩, h3⟩
    refine ⟨by rw [hke]; exact h1, ⟨kt, by rw [hke, hbm]; exact h2⟩, ?_⟩
    rcases h3 with ⟨h3, rfl, h4⟩ | ⟨h3, h4⟩
    · exact Or.inl ⟨by simpa using h3, rfl, by rw [hc, h4, List.map_map, List.map_map]; rfl⟩
    · refine Or.inr ⟨by simpa using h3, ?_⟩
      rw [hc, h4, List.map_append, List.map_map, List.map_cons, List.map_replicate, List.map_map, List.length_map]
      rfl
  refine ⟨?_, by rw [hn, hL.num, List.length_map], ?_⟩
  · show List.Pairwise _ _
    rw [List.pairwise_map]
    exact hL.sorted
  · rw [hk]
    rcases hL.kinds with ⟨hk, hb⟩ | ⟨hk, hb⟩ | ⟨hk, hb, rfl⟩ | ⟨hk, hb, rfl⟩ <;> rw [hk] <;> simp only [Body]
    · exact harr 4 hb
    · exact harr 16 hb
    · refine ⟨⟨by rw [hke]; exact hb.klen, by rw [hc, List.length_map]; exact hb.clen, by rw [List.length_map]; exact hb.le, ?_, ?_, ?_, ?_⟩, rfl⟩
      · intro b c hm
        obtain ⟨⟨b', c'⟩, h1, h2⟩ := List.mem_map.1 hm
        cases h2
        obtain ⟨i, h3, h4, h5⟩ := hb.live _ _ h1
        exact ⟨i, h3, by rw [hke]; exact h4, by rw [hc, List.getElem?_map, h5]; rfl⟩
      · intro b hno
        rw [hke]
        exact hb.dead b fun c hm => hno (φ c) (List.mem_map.2 ⟨_, hm, rfl⟩)
      · intro b b' hm h2
        rw [hbm] at hm
        rw [hke] at h2
        exact hb.inj b b' hm h2
      · intro i c hi
        rw [hc, List.getElem?_map] at hi
        obtain ⟨o, h1, h2⟩ := Option.map_eq_some_iff.1 hi
        obtain ⟨c', rfl, rfl⟩ := Option.map_eq_some_iff.1 h2
        obtain ⟨b, h3, h4⟩ := hb.slot i c' h1
        exact ⟨b, List.mem_map.2 ⟨_, h3, rfl⟩, by rw [hke]; exact h4⟩
    · refine ⟨⟨by rw [hc, List.length_map]; exact hb.1, fun b c => ?_⟩, rfl⟩
      rw [hc, List.getElem?_map]
      constructor
      · intro hi
        obtain ⟨o, h1, h2⟩ := Option.map_eq_some_iff.1 hi
        obtain ⟨c', rfl, rfl⟩ := Option.map_eq_some_iff.1 h2
        exact List.mem_map.2 ⟨_, (hb.2 b c').1 h1, rfl⟩
      · intro hm
        obtain ⟨⟨b', c'⟩, h1, h2⟩ := List.mem_map.1 hm
        cases h2
        rw [(hb.2 b' c').2 h1]
        rfl

/-! ### Finding children -/

/-- Looking for a child does not fail, and finds children of the node only. -/
def FindOK (n : Inner) : Prop := ∀ b, ∃ o i, n.findChild b = .ok (o, i) ∧ ∀ c, o = some c → some c ∈ n.children

/-- A node with the keys of a well-formed node, fewer children, and as many slots. -/
theorem Layout.findOK (hL : Layout n es st) (hk : n'.kind = n.kind) (hke : n'.keys = n.keys) (hlen : n'.children.length = n.children.length)
    (hnum : n'.numChildren.toNat ≤ n.numChildren.toNat) : FindOK n' := by
  intro b
  have hget : ∀ i : Nat, i < n'.children.length → n'.kind ≠ .n256 → ∃ o, n'.getChild (i : Nat) = .ok o ∧ ∀ c, o = some c → some c ∈ n'.children := fun i hi hk => by
    refine ⟨n'.children[i], ?_, fun c hc => by rw [← hc]; exact List.getElem_mem hi⟩
    unfold Inner.getChild
    split
    · rename_i h; exact absurd h hk
    · rw [if_neg (by omega)]
      simp only [Int.toNat_natCast, List.getElem?_eq_getElem hi]
  have hsmall : ∀ k, n'.kind = k → k ≠ .n256 → k ≠ .n48 → ∃ o i, n'.findChild b = .ok (o, i) ∧ ∀ c, o = some c → some c ∈ n'.children := fun k hk h1 h2 => by
    have hle := goSearch_le n'.numChildren.toNat fun i => (n'.keys[i]?).getD 0 > b
    have hnl := hL.num_le
    have hmain : ∀ idx, idx ≤ n'.numChildren.toNat → ∃ o i, (do
        if idx ≥ 1 ∧ n'.keys[idx - 1]? = some b then
          let ch ← n'.getChild (idx - 1 : Nat)
          pure (ch, idx - 1)
        else pure (none, 0) : R (Option Addr × Nat)) = .ok (o, i) ∧ ∀ c, o = some c → some c ∈ n'.children := fun idx hidx => by
      split
      · rename_i hc
        obtain ⟨o, g1, g2⟩ := hget (idx - 1) (by omega) (by rw [hk]; exact h1)
        rw [g1]
        exact ⟨o, _, rfl, g2⟩
      · exact ⟨none, 0, rfl, fun c h => nomatch h⟩
    unfold Inner.findChild
    rw [hk]
    cases k with
    | n4 => exact hmain _ hle
    | n16 => exact hmain _ hle
    | n48 => exact absurd rfl h2
    | n256 => exact absurd rfl h1
  rcases hL.kinds with ⟨h1, hb⟩ | ⟨h1, hb⟩ | ⟨h1, hb, -⟩ | ⟨h1, hb, -⟩
  · exact hsmall .n4 (hk.trans h1) (by simp) (by simp)
  · exact hsmall .n16 (hk.trans h1) (by simp) (by simp)
  · have hk' := hk.trans h1
    unfold Inner.findChild
    rw [hk']
    have hlt : b.toNat < n'.keys.length := by rw [hke, hb.klen]; exact UInt8.toNat_lt b
    have hgk : n'.getKeyAtIdx b.toNat = .ok n'.keys[b.toNat] := by
      unfold Inner.getKeyAtIdx
      rw [hk']
      simp only [List.getElem?_eq_getElem hlt]
    rw [hgk]
    simp only [Except.bind_ok]
    split
    · rename_i hne
      have hslot : (n'.keys[b.toNat] - 1).toNat < n'.children.length := by
        rw [hlen, hb.clen]
        by_cases hex : ∃ c, (b, c) ∈ es
        · obtain ⟨c, hbc⟩ := hex
          obtain ⟨i, h3, h4, -⟩ := hb.live b c hbc
          rw [← hke, List.getElem?_eq_getElem hlt] at h4
          rw [Option.some.inj h4, UInt8.toNat_sub_of_le _ _ (by rw [UInt8.le_iff_toNat_le, toNat_ofNat (by omega)]; simp), toNat_ofNat (by omega)]
          simp; omega
        · have h4 := hb.dead b fun c hc => hex ⟨c, hc⟩
          rw [← hke, List.getElem?_eq_getElem hlt] at h4
          exact absurd (Option.some.inj h4) hne
      obtain ⟨o, g1, g2⟩ := hget _ hslot (by rw [hk']; simp)
      rw [g1]
      exact ⟨o, _, rfl, g2⟩
    · exact ⟨none, 0, rfl, fun c h => nomatch h⟩
  · have hk' := hk.trans h1
    unfold Inner.findChild
    rw [hk']
    have hlt : b.toNat < n'.children.length := by rw [hlen, hb.1]; exact UInt8.toNat_lt b
    have hb256 := UInt8.toNat_lt b
    have hg : n'.getChild (b.toNat : Nat) = .ok n'.children[b.toNat] := by
      unfold Inner.getChild
      rw [hk']
      simp only [if_neg (show ¬ ((b.toNat : Int) < 0 ∨ (b.toNat : Int) ≥ 256) by omega), Int.toNat_natCast, List.getElem?_eq_getElem hlt, Option.getD_some]
    rw [hg]
    simp only [Except.bind_ok]
    split
    · exact ⟨_, _, rfl, fun c hc => by rw [← hc]; exact List.getElem_mem hlt⟩
    · exact ⟨none, 0, rfl, fun c h => nomatch h⟩

end Art
