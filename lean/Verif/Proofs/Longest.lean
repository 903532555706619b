import Verif.Proofs.Slots
/-
`LongestPrefix` on tidy trees.
-/
set_option autoImplicit false
set_option linter.unusedVariables false
set_option linter.unusedSimpArgs false
set_option linter.unusedSectionVars false
namespace Art
variable {V : Type} [Removals] {h : Heap V} {E : List (Ent V)} {N : List (Key × Addr)} {p : Key} {a : Addr} {n : Inner} {es : Edges} {st : Option Addr} {m : Map V}

/-- The key of the entry is a prefix of `q`. -/
def Ent.Cand (q : Key) (e : Ent V) : Prop := (Ent.out e).1 <+: q

/-- `e` is the own leaf of the node `c`. -/
def TopLeaf (h : Heap V) (c : Addr) (e : Ent V) : Prop :=
  ∃ n l lc, h[c]? = some (.inner n) ∧ n.leaf = some l ∧ h[l]? = some (.leaf lc) ∧ e = (lc.key, lc.value, l)

theorem TopLeaf.eq {c : Addr} {e e' : Ent V} (h1 : TopLeaf h c e) (h2 : TopLeaf h c e') : e = e' := by
  obtain ⟨n, l, lc, h3, h4, h5, rfl⟩ := h1
  obtain ⟨n', l', lc', h6, h7, h8, rfl⟩ := h2
  rw [h3] at h6; cases h6
  rw [h4] at h7; cases h7
  rw [h5] at h8; cases h8
  rfl

/-- The node exists, and so does its own leaf, if it has one. -/
def HasTop (h : Heap V) (c : Addr) : Prop := ∃ n, h[c]? = some (.inner n) ∧ ∀ l, n.leaf = some l → ∃ lc, h[l]? = some (.leaf lc)

theorem Rep.hasTop (hr : Rep h p a E N) : HasTop h a := by
  cases hr with
  | leaf ha hL hpart hw hleaf hl hp hd => exact ⟨_, ha, fun l' h1 => by rw [hleaf] at h1; cases h1; exact ⟨_, hl⟩⟩
  | node ha hL hne hh hst hown hnd htw hch =>
    refine ⟨_, ha, fun l' h1 => ?_⟩
    rcases hown.inv with ⟨ho, -⟩ | ⟨l, lc, ho, -, hl, -⟩
    · rw [ho] at h1; cases h1
    · rw [ho] at h1; cases h1; exact ⟨_, hl⟩

theorem TopLeaf.mem {e : Ent V} (ht : TopLeaf h a e) (hr : Rep h p a E N) : e ∈ E := by
  obtain ⟨n', l', lc', h1, h2, h3, rfl⟩ := ht
  cases hr with
  | leaf ha hL hpart hw hleaf hl hp hd =>
    rw [ha] at h1; cases h1
    rw [hleaf] at h2; cases h2
    rw [hl] at h3; cases h3
    simp
  | node ha hL hne hh hst hown hnd htw hch =>
    rw [ha] at h1; cases h1
    rcases hown.inv with ⟨ho, rfl⟩ | ⟨l, lc, ho, rfl, hl, -⟩
    · rw [ho] at h2; cases h2
    · rw [ho] at h2; cases h2
      rw [hl] at h3; cases h3
      simp

/-- A subtree is a single leaf, or its top has children. -/
theorem Rep.kindOf (hr : Rep h p a E N) : (∃ n, h[a]? = some (.inner n) ∧ n.isLeaf = false) ∨ ∃ e, E = [e] ∧ TopLeaf h a e := by
  cases hr with
  | leaf ha hL hpart hw hleaf hl hp hd => exact Or.inr ⟨_, rfl, _, _, _, ha, hleaf, hl, rfl⟩
  | node ha hL hne hh hst hown hnd htw hch => exact Or.inl ⟨_, ha, hL.not_leaf hne⟩

/-- A key that ends at the edge to the subtree is in its top. -/
theorem Rep.top_of {e : Ent V} (hr : Rep h p a E N) (he : e ∈ E) (hk : e.1 = p) : TopLeaf h a e := by
  cases hr with
  | leaf ha hL hpart hw hleaf hl hp hd => cases List.mem_singleton.1 he; exact ⟨_, _, _, ha, hleaf, hl, rfl⟩
  | @node p a n pfx es st vals f g ha hL hne hh hst hown hnd htw hch =>
    exfalso
    rcases List.mem_append.1 he with he | he
    · rcases hown.inv with ⟨ho, rfl⟩ | ⟨l, lc, ho, rfl, hl, hkey⟩
      · cases he
      · cases List.mem_singleton.1 he
        have := congrArg List.length (hkey.symm.trans hk)
        simp at this
    · obtain ⟨⟨b, c⟩, hb, he⟩ := List.mem_flatMap.1 he
      have := ((hch b c hb).prefix e he).length_le
      rw [hk] at this
      simp at this
      omega

theorem lpChildren_eq (key : Key) (cs : List (Option Addr)) : ∀ last, lpChildren h key cs last = lpChildren h key ((cs.filterMap _root_.id).map some) last := by
  induction cs with
  | nil => intro last; rfl
  | cons c cs ih =>
    intro last
    cases c with
    | none => rw [lpChildren, ih]; rfl
    | some c =>
      rw [List.filterMap_cons]
      simp only [_root_.id, List.map_cons]
      rw [lpChildren, lpChildren]
      simp only [ih]

theorem lp_has {q : Key} {e : Ent V} : hasPrefixB (getKey (getTreeKey q)) (getKey e.1) = true ↔ e.Cand q := by
  rw [hasPrefixB_iff, show getKey (getTreeKey q) = q from getKey_snoc _ _]; rfl

/-- The last child whose own leaf is a candidate wins. -/
theorem lpChildren_run (q : Key) {ds : Edges} (hT : ∀ d ∈ ds, HasTop h d.2) : ∀ last, ∃ r,
    lpChildren h (getTreeKey q) ((ds.map (·.2)).map some) last = .ok r ∧
    ((r = last ∧ ∀ d ∈ ds, ∀ e, TopLeaf h d.2 e → ¬ e.Cand q) ∨
     ∃ u d v e, ds = u ++ d :: v ∧ TopLeaf h d.2 e ∧ e.Cand q ∧ r = some e.2.2 ∧ ∀ d' ∈ v, ∀ e', TopLeaf h d'.2 e' → ¬ e'.Cand q) := by
  induction ds with
  | nil => intro last; exact ⟨last, rfl, Or.inl ⟨rfl, by simp⟩⟩
  | cons d ds ih =>
    intro last
    have ih := ih fun d hd => hT d (by simp [hd])
    obtain ⟨n, h1, h2⟩ := hT d (by simp)
    rw [List.map_cons, List.map_cons, lpChildren]
    simp only [rd_eq h1, Except.bind_ok, Cell.nodeLeaf]
    have lift : ∀ (r : Option Addr), (∃ u d' v e, ds = u ++ d' :: v ∧ TopLeaf h d'.2 e ∧ e.Cand q ∧ r = some e.2.2 ∧ ∀ d'' ∈ v, ∀ e', TopLeaf h d''.2 e' → ¬ e'.Cand q) →
        ∃ u d' v e, d :: ds = u ++ d' :: v ∧ TopLeaf h d'.2 e ∧ e.Cand q ∧ r = some e.2.2 ∧ ∀ d'' ∈ v, ∀ e', TopLeaf h d''.2 e' → ¬ e'.Cand q := by
      rintro r ⟨u, d', v, e, rfl, h3⟩
      exact ⟨d :: u, d', v, e, rfl, h3⟩
    cases hl : n.leaf with
    | none =>
      simp only
      obtain ⟨r, h3, h4⟩ := ih last
      refine ⟨r, h3, ?_⟩
      rcases h4 with ⟨h4, h5⟩ | h4
      · refine Or.inl ⟨h4, fun d' hd' => ?_⟩
        rcases List.mem_cons.1 hd' with rfl | hd'
        · rintro e ⟨n', l, lc, h6, h7, -⟩
          rw [h1] at h6; cases h6
          rw [hl] at h7; cases h7
        · exact h5 d' hd'
      · exact Or.inr (lift r h4)
    | some l =>
      obtain ⟨lc, hlc⟩ := h2 l hl
      have ht : TopLeaf h d.2 (lc.key, lc.value, l) := ⟨n, l, lc, h1, hl, hlc, rfl⟩
      simp only [rdLeaf_eq hlc, Except.bind_ok]
      have hc := lp_has (q := q) (e := (lc.key, lc.value, l))
      simp only at hc
      by_cases hcand : (Ent.Cand q (lc.key, lc.value, l))
      · rw [if_pos (hc.2 hcand)]
        obtain ⟨r, h3, h4⟩ := ih (some l)
        refine ⟨r, h3, Or.inr ?_⟩
        rcases h4 with ⟨h4, h5⟩ | h4
        · exact ⟨[], d, ds, _, rfl, ht, hcand, h4, h5⟩
        · exact lift r h4
      · rw [if_neg fun h => hcand (hc.1 h)]
        obtain ⟨r, h3, h4⟩ := ih last
        refine ⟨r, h3, ?_⟩
        rcases h4 with ⟨h4, h5⟩ | h4
        · refine Or.inl ⟨h4, fun d' hd' => ?_⟩
          rcases List.mem_cons.1 hd' with rfl | hd'
          · intro e he
            rw [he.eq ht]; exact hcand
          · exact h5 d' hd'
        · exact Or.inr (lift r h4)

theorem lpOwn_run (q : Key) (ha : h[a]? = some (.inner n)) (hT : HasTop h a) (last : Option Addr) : ∃ r, lpOwn h (getTreeKey q) (.inner n) last = .ok r ∧
    ((∀ e, TopLeaf h a e → ¬ e.Cand q) → r = last) ∧ (∀ e, TopLeaf h a e → e.Cand q → r = some e.2.2) := by
  obtain ⟨n', h1, h2⟩ := hT
  rw [ha] at h1; cases h1
  unfold lpOwn
  simp only [Cell.nodeLeaf]
  cases hl : n.leaf with
  | none =>
    refine ⟨last, rfl, fun _ => rfl, ?_⟩
    rintro e ⟨n', l, lc, h6, h7, -⟩
    rw [ha] at h6; cases h6
    rw [hl] at h7; cases h7
  | some l =>
    obtain ⟨lc, hlc⟩ := h2 l hl
    have ht : TopLeaf h a (lc.key, lc.value, l) := ⟨n, l, lc, ha, hl, hlc, rfl⟩
    simp only [rdLeaf_eq hlc, Except.bind_ok]
    have hc := lp_has (q := q) (e := (lc.key, lc.value, l))
    simp only at hc
    refine ⟨_, rfl, fun h1 => if_neg fun h2 => h1 _ ht (hc.1 h2), fun e he hce => ?_⟩
    cases he.eq ht
    exact if_pos (hc.2 hce)

theorem Ent.Cand.eq_of {q : Key} {e e' : Ent V} (hr : Rep h p a E N) (he : e ∈ E) (he' : e' ∈ E) (hk : e'.1 = e.1) : e' = e := by
  have h1 := hr.nodup
  rw [List.Nodup, List.pairwise_map, List.pairwise_iff_getElem] at h1
  obtain ⟨x, hx, hxe⟩ := List.getElem_of_mem he
  obtain ⟨y, hy, hye⟩ := List.getElem_of_mem he'
  rcases Nat.lt_trichotomy x y with h5 | h5 | h5
  · exact absurd (by rw [hxe, hye, hk]) (h1 x y hx hy h5)
  · subst h5; rw [hxe] at hye; exact hye.symm
  · exact absurd (by rw [hxe, hye, hk]) (h1 y x hy hx h5)

theorem PFree.cand {q : Key} {e e' : Ent V} (hr : Rep h p a E N) (hp : PFree E) (he : e ∈ E) (he' : e' ∈ E) (h1 : e.Cand q) (h2 : e'.Cand q) : e' = e := by
  rcases List.prefix_or_prefix_of_prefix h1 h2 with h3 | h3
  · exact Ent.Cand.eq_of (q := q) hr he he' (hp e he e' he' h3)
  · exact Ent.Cand.eq_of (q := q) hr he he' (hp e' he' e he h3).symm

/-- The loop finds the longest candidate. -/
theorem Rep.longest (hr : Rep h p a E N) (hno : ¬ Removals.allowed) (q : Key)
    (hyp : PFree E ∨ (NoLow E ∧ ∀ x ∈ N.map (·.2), ∀ n, h[x]? = some (.inner n) → n.isLeaf = false → n.kind ≠ .n48)) :
    ∀ fuel last, q.length + 1 - p.length < fuel → ∃ r, lpLoop h (getTreeKey q) fuel a p.length last = .ok r ∧
      ((∀ e ∈ E, ¬ e.Cand q) → r = last) ∧
      (∀ e ∈ E, e.Cand q → (∀ e' ∈ E, e'.Cand q → e'.1.length ≤ e.1.length) →
        ((∃ n, h[a]? = some (.inner n) ∧ n.isLeaf = false) ∨ last = some e.2.2) → r = some e.2.2) := by
  have hKl : (getTreeKey q).length = q.length + 1 := by simp [getTreeKey]
  induction hr with
  | @leaf p a n l lc ha hL hpart hw hleaf hl hp hd =>
    intro fuel last hf
    obtain ⟨fuel, rfl⟩ : ∃ k, fuel = k + 1 := ⟨fuel - 1, by omega⟩
    obtain ⟨bail, hb⟩ := prefixBails_ok (V := V) hpart (getTreeKey q) p.length
    have ht : TopLeaf h a (lc.key, lc.value, l) := ⟨n, l, lc, ha, hleaf, hl, rfl⟩
    have hlf : n.isLeaf = true := hL.isLeaf_iff.2 ⟨rfl, by rw [hleaf]; nofun⟩
    obtain ⟨r1, h1, h2, h3⟩ := lpOwn_run q ha ⟨n, ha, fun l' h1 => by rw [hleaf] at h1; cases h1; exact ⟨_, hl⟩⟩ last
    obtain ⟨ds, g1, g2, -⟩ := hL.slotEdges (hL.tidy (by rw [(hw.resolve_left hno).1]; nofun)) (by simp)
    have g3 : ds = [] := g1.eq_nil
    subst g3
    rw [lpLoop]
    simp only [rd_eq ha, Except.bind_ok, hb]
    have hstop : ∀ e ∈ [(lc.key, lc.value, l)], Ent.Cand q e → ((∃ n, h[a]? = some (.inner n) ∧ n.isLeaf = false) ∨ last = some e.2.2) → last = some e.2.2 := by
      intro e he _ hor
      rcases hor with ⟨n', h4, h5⟩ | h4
      · rw [ha] at h4; cases h4
        rw [hlf] at h5; cases h5
      · exact h4
    split
    · exact ⟨last, rfl, fun _ => rfl, fun e he hc _ hor => hstop e he hc hor⟩
    · split
      · exact ⟨last, rfl, fun _ => rfl, fun e he hc _ hor => hstop e he hc hor⟩
      · rename_i hlt
        simp only [Cell.partialLen] at hlt ⊢
        rw [h1, Except.bind_ok]
        simp only [Cell.children]
        rw [lpChildren_eq, g2]
        simp only [List.map_nil, lpChildren, Except.bind_ok]
        obtain ⟨b, hb⟩ : ∃ b, byteAt (getTreeKey q) (p.length + n.partialLen) = .ok b := by
          unfold byteAt
          rw [List.getElem?_eq_getElem (by omega)]
          exact ⟨_, rfl⟩
        rw [hb, Except.bind_ok]
        simp only [Cell.findChild, hL.find_none (b := b) (by simp), Except.bind_ok]
        refine ⟨r1, rfl, fun hn => h2 fun e he => ?_, fun e he hc _ _ => ?_⟩
        · cases he.eq ht; exact hn _ (by simp)
        · cases List.mem_singleton.1 he; exact h3 _ ht hc
  | @node p a n pfx es st vals f g ha hL hne hh hst hown hnd htw hch ih =>
    intro fuel last hf
    obtain ⟨fuel, rfl⟩ : ∃ k, fuel = k + 1 := ⟨fuel - 1, by omega⟩
    have hrN : Rep h p a (vals ++ es.flatMap fun e => f e.1) ((p, a) :: es.flatMap fun e => g e.1) := .node ha hL hne hh hst hown hnd htw hch
    have hsub : ∀ {b c e}, (b, c) ∈ es → e ∈ f b → e ∈ vals ++ es.flatMap fun e => f e.1 := fun hb he =>
      List.mem_append_right _ (List.mem_flatMap.2 ⟨_, hb, he⟩)
    obtain ⟨bail, hbail, hbi⟩ := prefixBails_eq (V := V) hh (getTreeKey q) p.length
    -- candidates
    have hown' : ∀ e ∈ vals, e.1 = p ++ pfx ++ [Art.dollar] ∧ TopLeaf h a e ∧ n.leaf ≠ none := fun e he => by
      rcases hown.inv with ⟨ho, rfl⟩ | ⟨l, lc, ho, rfl, hl, hkey⟩
      · cases he
      · cases List.mem_singleton.1 he
        exact ⟨hkey, ⟨n, l, lc, ha, ho, hl, rfl⟩, by rw [ho]; nofun⟩
    have hkid : ∀ {b c e}, (b, c) ∈ es → e ∈ f b → e.Cand q → (b = Art.dollar ∧ e.1 = p ++ pfx ++ [Art.dollar] ∧ p ++ pfx <+: q) ∨
        (p ++ pfx ++ [b] <+: q ∧ (p ++ pfx).length + 2 ≤ e.1.length) := fun {b c e} hb he hc => by
      have hp := (hch b c hb).prefix e he
      obtain ⟨k, hk⟩ := (hch b c hb).dollar e he
      simp only [Ent.Cand, Ent.out, hk, getKey_snoc] at hc
      rw [hk] at hp
      rcases prefix_dollar.1 hp with h1 | h1
      · refine Or.inr ⟨h1.trans hc, ?_⟩
        have := h1.length_le
        rw [hk]
        simp only [List.length_append, List.length_cons, List.length_nil] at this ⊢
        omega
      · obtain ⟨h2, h3⟩ := snoc2 h1
        exact Or.inl ⟨h3, by rw [hk, h2], h2 ▸ hc⟩
    have hP : ∀ e ∈ vals ++ es.flatMap (fun e => f e.1), e.Cand q → p ++ pfx <+: q := fun e he hc => by
      rcases List.mem_append.1 he with he | he
      · have := (hown' e he).1
        simp only [Ent.Cand, Ent.out, this, getKey_snoc] at hc
        exact hc
      · obtain ⟨⟨b, c⟩, hb, he⟩ := List.mem_flatMap.1 he
        rcases hkid hb he hc with h1 | h1
        · exact h1.2.2
        · exact (List.prefix_append _ _).trans h1.1
    rw [lpLoop]
    simp only [rd_eq ha, Except.bind_ok, hbail, Cell.partialLen, hh.len]
    by_cases hb1 : bail = true
    · rw [if_pos hb1]
      refine ⟨last, rfl, fun _ => rfl, fun e he hc _ _ => ?_⟩
      have h1 := hP e he hc
      rw [hbi.2] at hb1
      · cases hb1
      · intro t ht
        obtain ⟨w, hw⟩ := h1
        have : getTreeKey q = p ++ (pfx ++ (w ++ [Art.dollar])) := by rw [getTreeKey, ← hw]; simp
        rw [this, List.drop_left, List.getElem?_append_left (by omega)]
    rw [if_neg hb1]
    by_cases hlen : p.length + pfx.length ≥ (getTreeKey q).length
    · rw [if_pos hlen]
      refine ⟨last, rfl, fun _ => rfl, fun e he hc _ _ => ?_⟩
      have h1 := (hP e he hc).length_le
      rw [List.length_append] at h1
      omega
    rw [if_neg hlen]
    obtain ⟨r1, o1, o2, o3⟩ := lpOwn_run q ha hrN.hasTop last
    rw [o1, Except.bind_ok]
    simp only [Cell.children]
    obtain ⟨ds, d1, d2, d3⟩ := hL.slotEdges (htw.resolve_left hno).1 (kids_nodup hL.sorted hch)
    rw [lpChildren_eq, d2]
    obtain ⟨r2, c1, c2⟩ := lpChildren_run (h := h) q (ds := ds) (fun d hd => (hch d.1 d.2 (d1.subset hd)).hasTop) r1
    rw [c1, Except.bind_ok]
    obtain ⟨b, hb, hbq⟩ : ∃ b, byteAt (getTreeKey q) (p.length + pfx.length) = .ok b ∧ ∀ b', p ++ pfx ++ [b'] <+: q → b' = b := by
      unfold byteAt
      rw [List.getElem?_eq_getElem (by omega)]
      refine ⟨_, rfl, fun b' ⟨w, hw⟩ => ?_⟩
      have h1 : getTreeKey q = p ++ (pfx ++ (b' :: (w ++ [Art.dollar]))) := by rw [getTreeKey, ← hw]; simp
      have h2 : (getTreeKey q)[p.length + pfx.length]? = some b' := by
        rw [h1, List.getElem?_append_right (by omega), Nat.add_sub_cancel_left, List.getElem?_append_right (by omega), Nat.sub_self]
        rfl
      rw [List.getElem?_eq_getElem (by omega)] at h2
      exact (Option.some.inj h2).symm
    rw [hb, Except.bind_ok]
    simp only [Cell.findChild]
    have htopE : ∀ d ∈ es, ∀ e, TopLeaf h d.2 e → e ∈ f d.1 := fun d hd e he => he.mem (hch d.1 d.2 hd)
    have huniq : ∀ {b c c'}, (b, c) ∈ es → (b, c') ∈ es → c = c' := fun {b c c'} h1 h2 => by
      have hs := hL.sorted
      unfold Edges.Sorted at hs
      rw [List.pairwise_iff_getElem] at hs
      obtain ⟨x, hx, hxe⟩ := List.getElem_of_mem h1
      obtain ⟨y, hy, hye⟩ := List.getElem_of_mem h2
      rcases Nat.lt_trichotomy x y with h5 | h5 | h5
      · have := hs x y hx hy h5
        rw [hxe, hye] at this; exact absurd this Byte.lt_irrefl
      · subst h5; rw [hxe] at hye; cases hye; rfl
      · have := hs y x hy hx h5
        rw [hxe, hye] at this; exact absurd this Byte.lt_irrefl
    -- what the children contribute when nothing below `b` is a candidate
    have hnone : (∀ e ∈ vals ++ es.flatMap (fun e => f e.1), ¬ e.Cand q) → r2 = last := fun hno => by
      have h1 : r1 = last := o2 fun e he => hno e (he.mem hrN)
      rcases c2 with ⟨h2, -⟩ | ⟨u, d, v, e, h2, h3, h4, -⟩
      · rw [h2, h1]
      · have hd : d ∈ es := d1.subset (by rw [h2]; simp)
        exact absurd h4 (hno e (hsub (b := d.1) (c := d.2) hd (htopE d hd e h3)))
    have hside : ∀ e ∈ vals ++ es.flatMap (fun e => f e.1), e.Cand q → e.1 = p ++ pfx ++ [Art.dollar] → (∀ c, (b, c) ∈ es → ∀ e' ∈ f b, ¬ e'.Cand q) → r2 = some e.2.2 := by
      intro e he hc hek hno
      rcases List.mem_append.1 he with he | he
      · obtain ⟨-, ht, hlne⟩ := hown' e he
        rcases c2 with ⟨h2, -⟩ | ⟨u, d, v, e1, h2, h3, h4, -⟩
        · rw [h2]; exact o3 e ht hc
        · exfalso
          have hd : d ∈ es := d1.subset (by rw [h2]; simp)
          have he1 := htopE d hd e1 h3
          rcases hkid (b := d.1) (c := d.2) hd he1 h4 with ⟨h5, -⟩ | ⟨h5, -⟩
          · exact hnd hlne (List.mem_map.2 ⟨d, hd, h5⟩)
          · have h6 := hbq _ h5
            exact hno d.2 (h6 ▸ hd) e1 (h6 ▸ he1) h4
      · obtain ⟨⟨b', c'⟩, hb', he⟩ := List.mem_flatMap.1 he
        have hb'' : b' = Art.dollar := by
          have := (hch b' c' hb').prefix e he
          rw [hek] at this
          exact prefix_edge this (List.prefix_refl _)
        have ht : TopLeaf h c' e := (hch b' c' hb').top_of he (by rw [hek, hb''])
        rcases c2 with ⟨-, h2⟩ | ⟨u, d, v, e1, h2, h3, h4, h5, -⟩
        · exact absurd hc (h2 (b', c') (d1.symm.subset hb') e ht)
        · have hd : d ∈ es := d1.subset (by rw [h2]; simp)
          have he1 := htopE d hd e1 h3
          rcases hkid (b := d.1) (c := d.2) hd he1 h4 with ⟨h6, -⟩ | ⟨h6, -⟩
          · have : d.2 = c' := huniq (b := d.1) hd (by rw [h6, ← hb'']; exact hb')
            rw [this] at h3
            rw [h5, h3.eq ht]
          · have h7 := hbq _ h6
            exact absurd h4 (hno d.2 (h7 ▸ hd) e1 (h7 ▸ he1))
    -- a candidate is below `b`, or it is the key that ends here
    have hcase : ∀ e ∈ vals ++ es.flatMap (fun e => f e.1), e.Cand q → e.1 = p ++ pfx ++ [Art.dollar] ∨ ∃ c, (b, c) ∈ es ∧ e ∈ f b := fun e he hc => by
      rcases List.mem_append.1 he with he | he
      · exact Or.inl (hown' e he).1
      · obtain ⟨⟨b', c'⟩, hb', he⟩ := List.mem_flatMap.1 he
        rcases hkid hb' he hc with h1 | h1
        · exact Or.inl h1.2.1
        · have h6 := hbq _ h1.1
          exact Or.inr ⟨c', h6 ▸ hb', h6 ▸ he⟩
    rcases hL.findChild_iff b with ⟨hb1, hb2⟩ | ⟨l, c, r, i, hes, hb2, -⟩
    · rw [hb2, Except.bind_ok]
      have hno : ∀ c, (b, c) ∈ es → ∀ e' ∈ f b, ¬ e'.Cand q := fun c hc => absurd (List.mem_map.2 ⟨_, hc, rfl⟩) hb1
      refine ⟨r2, rfl, hnone, fun e he hc hmax _ => ?_⟩
      rcases hcase e he hc with h1 | ⟨c, h1, -⟩
      · exact hside e he hc h1 hno
      · exact absurd (List.mem_map.2 ⟨_, h1, rfl⟩) hb1
    · rw [hb2, Except.bind_ok]
      have hbc : (b, c) ∈ es := by rw [hes]; simp
      have hyp' : PFree (f b) ∨ (NoLow (f b) ∧ ∀ x ∈ (g b).map (·.2), ∀ n, h[x]? = some (.inner n) → n.isLeaf = false → n.kind ≠ .n48) := by
        rcases hyp with hyp | ⟨hy1, hy2⟩
        · exact Or.inl (hyp.sub fun e he => hsub hbc he)
        · refine Or.inr ⟨fun e he e' he' => hy1 e (hsub hbc he) e' (hsub hbc he'), fun x hx => hy2 x ?_⟩
          obtain ⟨y, hy, rfl⟩ := List.mem_map.1 hx
          exact List.mem_map.2 ⟨y, List.mem_cons_of_mem _ (List.mem_flatMap.2 ⟨_, hbc, hy⟩), rfl⟩
      obtain ⟨r3, i1, i2, i3⟩ := ih b c hbc hyp' fuel r2 (by
        simp only [List.length_append, List.length_cons, List.length_nil]
        omega)
      have hd : (p ++ pfx ++ [b]).length = p.length + pfx.length + 1 := by simp [Nat.add_assoc]
      rw [hd] at i1
      refine ⟨r3, i1, fun hno => (i2 fun e he => hno e (hsub hbc he)).trans (hnone hno), fun e he hc hmax _ => ?_⟩
      by_cases hin : e ∈ f b
      · refine i3 e hin hc (fun e' he' hc' => hmax e' (hsub hbc he') hc') ?_
        rcases (hch b c hbc).kindOf with hk | ⟨e0, he0, ht0⟩
        · exact Or.inl hk
        · right
          rw [he0] at hin
          cases List.mem_singleton.1 hin
          have hin : e ∈ f b := by rw [he0]; simp
          rcases c2 with ⟨-, h2⟩ | ⟨u, d, v, e1, h2, h3, h4, h5, h6⟩
          · exact absurd hc (h2 (b, c) (d1.symm.subset hbc) e ht0)
          · have hd : d ∈ es := d1.subset (by rw [h2]; simp)
            have he1 := htopE d hd e1 h3
            have he1' := hsub (b := d.1) (c := d.2) hd he1
            rcases hyp with hyp | ⟨hy1, hy2⟩
            · rw [h5, hyp.cand hrN he he1' hc h4]
            · have hds := d3 (hy2 a (by simp) n ha (hL.not_leaf hne))
              by_cases hdb : d.1 = b
              · have : d.2 = c := huniq (b := d.1) hd (by rw [hdb]; exact hbc)
                rw [this] at h3
                rw [h5, h3.eq ht0]
              · exfalso
                rcases hkid (b := d.1) (c := d.2) hd he1 h4 with ⟨h7, h8, -⟩ | ⟨h7, -⟩
                · have hlow := hy1 e1 he1' e he (p ++ pfx) b h8 ((hch b c hbc).prefix e hin)
                  have hmem : (b, c) ∈ u ++ d :: v := by rw [← h2, hds]; exact hbc
                  rcases List.mem_append.1 hmem with hm | hm
                  · have hs := hL.sorted
                    rw [← hds, h2] at hs
                    have := (List.pairwise_append.1 hs).2.2 _ hm d (by simp)
                    simp only at this
                    rw [h7] at this
                    exact absurd this (UInt8.not_lt.2 hlow)
                  · rcases List.mem_cons.1 hm with hm | hm
                    · exact hdb (by rw [← hm])
                    · exact h6 (b, c) hm e ht0 hc
                · exact hdb (hbq _ h7)
      · rcases hcase e he hc with h1 | ⟨c', -, h2⟩
        · have hno : ∀ c, (b, c) ∈ es → ∀ e' ∈ f b, ¬ e'.Cand q := fun c' hc' e' he' hce' => by
            rcases hkid hc' he' hce' with ⟨h3, h4, -⟩ | ⟨-, h3⟩
            · exact hin ((Ent.Cand.eq_of (q := q) hrN (hsub hc' he') he (h1.trans h4.symm)) ▸ he')
            · have := hmax e' (hsub hc' he') hce'
              rw [h1, List.length_append, List.length_singleton] at this
              omega
          exact (i2 fun e' he' => hno c hbc e' he').trans (hside e he hc h1 hno)
        · exact absurd h2 hin

theorem Abs.cand [Inhabited V] (hr : Rep h p a E N) (ha : Abs E m) (hn : (m.map (·.1)).Nodup) {k : Key} {v : V} (hg : m.get k = some v) :
    ∃ e ∈ E, e.1 = k ++ [dollar] ∧ e.2.1 = v := by
  obtain ⟨x, hx⟩ := (ha k v).1 ((Map.get_iff hn).1 hg)
  exact ⟨_, hx, rfl, rfl⟩

/-- The pair that is returned for a leaf. -/
def lpResult (h : Heap V) : Option Addr → R (Option (Key × V))
  | none => .ok none
  | some l => do
    let lc ← rdLeaf h l
    pure (some (getKey lc.key, lc.value))

theorem ViewOf.longest {ex : Bool} [Inhabited V] {t : Tree} {full : Bool} (hv : ViewOf ex h t.root t.size full m) (hno : ¬ Removals.allowed) (hne : m ≠ []) (q : Key)
    (hyp : m.PrefixFree ∨ (m.Ordered ∧ m.Narrow 12)) (hq : ∀ k, m.has k → (∀ k', m.has k' → k <+: k') → k <+: q) :
    ((∀ k, m.has k → ¬ k <+: q) → longestPrefix h t q = .ok none) ∧
    (∀ k v, m.get k = some v → k <+: q → (∀ k', m.has k' → k' <+: q → k'.length ≤ k.length) → longestPrefix h t q = .ok (some (k, v))) := by
  obtain ⟨E, N, hr, ha⟩ := hv.entries hne
  have hkey : ∀ e ∈ E, ∃ k, e.1 = k ++ [dollar] ∧ m.has k ∧ (e.Cand q ↔ k <+: q) := fun e he => by
    obtain ⟨k, hk⟩ := hr.dollar e he
    exact ⟨k, hk, ⟨_, ha.mem he hk⟩, by simp only [Ent.Cand, Ent.out, hk, getKey_snoc]⟩
  -- the own leaf of the root is a candidate
  have hroot : ∀ e, TopLeaf h t.root e → e.Cand q := fun e he => by
    obtain ⟨k, h1, h2, h3⟩ := hkey e (he.mem hr)
    refine h3.2 (hq k h2 fun k' hk' => ?_)
    obtain ⟨e', he', hk'⟩ := ha.has.1 hk'
    obtain ⟨n', l', lc', g1, g2, g3, rfl⟩ := he
    cases hr with
    | leaf hh hL hpart hw hleaf hl hp hd =>
      rw [hh] at g1; cases g1
      rw [hleaf] at g2; cases g2
      rw [hl] at g3; cases g3
      cases List.mem_singleton.1 he'
      rw [h1] at hk'
      rw [(snoc2 hk').1]
      exact List.prefix_refl _
    | @node _ _ n pfx es st vals f g hh hL hne' hhd hst hown hnd htw hch =>
      rw [hh] at g1; cases g1
      rcases hown.inv with ⟨ho, rfl⟩ | ⟨l, lc, ho, rfl, hl, hkey'⟩
      · rw [ho] at g2; cases g2
      · rw [ho] at g2; cases g2
        rw [hl] at g3; cases g3
        rw [hkey'] at h1
        rw [← (snoc2 h1).1]
        rcases List.mem_append.1 he' with he' | he'
        · cases List.mem_singleton.1 he'
          rw [hkey'] at hk'
          rw [(snoc2 hk').1]
          exact List.prefix_refl _
        · obtain ⟨⟨b, c⟩, hb, he'⟩ := List.mem_flatMap.1 he'
          have := (hch b c hb).prefix e' he'
          rw [hk'] at this
          rcases prefix_dollar.1 this with h5 | h5
          · exact (List.prefix_append _ _).trans h5
          · rw [(snoc2 h5).1]; exact List.prefix_refl _
  obtain ⟨n, hn, hlf⟩ := hr.hasTop
  have hyp' : PFree E ∨ (NoLow E ∧ ∀ x ∈ N.map (·.2), ∀ n, h[x]? = some (.inner n) → n.isLeaf = false → n.kind ≠ .n48) := by
    rcases hyp with hyp | ⟨h1, h2⟩
    · exact Or.inl (ha.pfree hr hyp)
    · exact Or.inr ⟨ha.noLow hr h1, fun x hx n hn hlf hk => absurd ((hr.narrow (ha.narrow hr h2) x hx n hn hlf).2.1 hk) (by omega)⟩
  obtain ⟨r, h1, h2, h3⟩ := hr.longest hno q hyp' (q.length + 2) n.leaf (by omega)
  have hlp : longestPrefix h t q = lpResult h r := by
    unfold longestPrefix
    have hl : (getTreeKey q).length + 1 = q.length + 2 := by simp [getTreeKey]
    simp only [rd_eq hn, Except.bind_ok, Cell.nodeLeaf, hl]
    rw [show lpLoop h (getTreeKey q) (q.length + 2) t.root 0 n.leaf = .ok r from h1, Except.bind_ok]
    cases r <;> rfl
  constructor
  · intro hno
    have hno' : ∀ e ∈ E, ¬ e.Cand q := fun e he => by
      obtain ⟨k, -, g2, g3⟩ := hkey e he
      exact fun hc => hno k g2 (g3.1 hc)
    have : r = none := by
      rw [h2 hno']
      cases hl : n.leaf with
      | none => rfl
      | some l =>
        obtain ⟨lc, hlc⟩ := hlf l hl
        have ht : TopLeaf h t.root (lc.key, lc.value, l) := ⟨n, l, lc, hn, hl, hlc, rfl⟩
        exact absurd (hroot _ ht) (hno' _ (ht.mem hr))
    rw [hlp, this, lpResult]
  · intro k v hg hkq hmax
    obtain ⟨e, he, hek, hev⟩ := ha.cand hr hv.nodup hg
    have hc : e.Cand q := by simp only [Ent.Cand, Ent.out, hek, getKey_snoc]; exact hkq
    have : r = some e.2.2 := by
      refine h3 e he hc (fun e' he' hc' => ?_) ?_
      · obtain ⟨k', g1, g2, g3⟩ := hkey e' he'
        have := hmax k' g2 (g3.1 hc')
        rw [g1, hek]
        simp only [List.length_append]; omega
      · rcases hr.kindOf with hk | ⟨e0, he0, ht0⟩
        · exact Or.inl hk
        · rw [he0] at he
          cases List.mem_singleton.1 he
          obtain ⟨n', l, lc, g1, g2, g3, rfl⟩ := ht0
          rw [hn] at g1; cases g1
          exact Or.inr g2
    obtain ⟨lc, hlc, g1, g2⟩ := hr.leaf_of e he
    rw [hlp, this, lpResult]
    simp only [rdLeaf_eq hlc, Except.bind_ok]
    rw [g1, hek, getKey_snoc, g2, hev]
    rfl

end Art
