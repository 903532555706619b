import Verif.Proofs.RepRead
/-
Searching a well-formed subtree.
-/
set_option autoImplicit false
set_option linter.unusedVariables false
set_option linter.unusedSimpArgs false
set_option linter.unusedSectionVars false
namespace Art
variable {V : Type} [Removals] {h : Heap V} {p : Key} {a : Addr} {E : List (Ent V)} {N : List (Key × Addr)} {n : Inner} {es l r : Edges} {st : Option Addr}
  {b : Byte} {c : Addr} {pfx P K : Key} {vals : List (Ent V)} {f : Byte → List (Ent V)} {g : Byte → List (Key × Addr)}

theorem searchChildren_none {xs : List (Option Addr)} (hx : ∀ c, some c ∈ xs → SOK h (fun k => k ≠ K) c) : searchChildren h K xs = .ok none := by
  induction xs with
  | nil => rfl
  | cons x xs ih =>
    have ih := ih fun c hc => hx c (List.mem_cons_of_mem _ hc)
    cases x with
    | none => rw [searchChildren]; exact ih
    | some c =>
      obtain ⟨m, hm, hl⟩ := hx c (by simp)
      rw [searchChildren]
      simp only [rd_eq hm, Except.bind_ok, Cell.nodeLeaf]
      cases hml : m.leaf with
      | none => exact ih
      | some l =>
        obtain ⟨lc, hlc, hne⟩ := hl l hml
        simp only [rdLeaf_eq hlc, Except.bind_ok]
        have : leafMatches lc.key K = false := Bool.eq_false_iff.2 fun hm => hne (leafMatches_iff.1 hm)
        simp only [this, Bool.false_eq_true, if_false]
        exact ih

/-- The own leaf of the top of a subtree is one of its entries. -/
theorem Rep.sokE (hr : Rep h p a E N) : SOK h (fun k => ∃ e ∈ E, e.1 = k) a := by
  cases hr with
  | leaf ha hL hpart hw hleaf hl hp hd =>
    refine ⟨_, ha, fun l' hl' => ?_⟩
    rw [hleaf] at hl'; cases hl'
    exact ⟨_, hl, _, List.mem_singleton.2 rfl, rfl⟩
  | node ha hL hne hh hst hown hnd htw hch =>
    refine ⟨_, ha, fun l' hl' => ?_⟩
    rcases hown.inv with ⟨ho, rfl⟩ | ⟨l, lc, ho, rfl, hl, hk⟩
    · rw [ho] at hl'; cases hl'
    · rw [ho] at hl'; cases hl'
      exact ⟨_, hl, _, List.mem_append_left _ (List.mem_singleton.2 rfl), rfl⟩

/-- The search stops at a node none of whose leaves, nor those of its children, holds the key. -/
theorem searchStop_miss (hown : ∀ e ∈ vals, e.1 ≠ K) (ho : OwnLeaf h P n.leaf vals) (hc : ∀ c, some c ∈ n.children → SOK h (fun k => k ≠ K) c) :
    searchStop h a (.inner n) K = .ok { val := none, watch := a } := by
  have h1 : searchOwn h (Cell.inner n : Cell V) K = .ok none := by
    unfold searchOwn
    rcases ho.inv with ⟨ho', rfl⟩ | ⟨l, lc, ho', rfl, hl, hk⟩
    · simp only [Cell.nodeLeaf, ho']; rfl
    · have : leafMatches lc.key K = false := Bool.eq_false_iff.2 fun hm => hown _ (List.mem_singleton.2 rfl) (leafMatches_iff.1 hm)
      simp only [Cell.nodeLeaf, ho', rdLeaf_eq hl, Except.bind_ok, this]
      rfl
  unfold searchStop
  simp only [h1, Except.bind_ok, Cell.children, searchChildren_none hc]
  rfl

/-- The search stops at a node whose own leaf holds the key. -/
theorem searchStop_own {l : Addr} {lc : LeafC V} (ho : n.leaf = some l) (hl : h[l]? = some (.leaf lc)) (hk : lc.key = K) :
    searchStop h a (.inner n) K = .ok { val := some lc.value, watch := l } := by
  unfold searchStop searchOwn
  have : leafMatches lc.key K = true := leafMatches_iff.2 hk
  simp only [Cell.nodeLeaf, ho, rdLeaf_eq hl, Except.bind_ok, this, pure, Except.pure, if_true]

/-- The answer of a search for `K` in a subtree at `p`. -/
structure Found (p K : Key) (E : List (Ent V)) (N : List (Key × Addr)) (hit : Hit V) : Prop where
  found : ∀ e ∈ E, e.1 = K → hit.val = some e.2.1 ∧ hit.watch = e.2.2
  miss : (∀ e ∈ E, e.1 ≠ K) → hit.val = none ∧ ∃ q, (q, hit.watch) ∈ N ∧ (p <+: K → (∀ e ∈ E, e.1.length ≤ 11) → q <+: K)

theorem Found.stop {hit : Hit V} (hv : hit.val = none) (hw : hit.watch = a) (hne : ∀ e ∈ E, e.1 ≠ K) (hm : (p, a) ∈ N) : Found p K E N hit :=
  ⟨fun e he hk => absurd hk (hne e he), fun _ => ⟨hv, p, by rw [hw]; exact hm, fun h _ => h⟩⟩

/-- The keys below a node extend its path. -/
theorem node_keys (hown : OwnLeaf h P n.leaf vals) (hch : ∀ b c, (b, c) ∈ es → Rep h (P ++ [b]) c (f b) (g b)) {e : Ent V}
    (he : e ∈ vals ++ es.flatMap fun e => f e.1) : e.1 = P ++ [dollar] ∧ e ∈ vals ∨ ∃ b c, (b, c) ∈ es ∧ e ∈ f b ∧ P ++ [b] <+: e.1 := by
  rcases List.mem_append.1 he with he | he
  · rcases hown.inv with ⟨-, rfl⟩ | ⟨l, lc, -, rfl, hl, hk⟩
    · cases he
    · refine Or.inl ⟨?_, he⟩
      rw [List.mem_singleton.1 he]; exact hk
  · obtain ⟨⟨b, c⟩, hb, he⟩ := List.mem_flatMap.1 he
    exact Or.inr ⟨b, c, hb, he, (hch b c hb).prefix e he⟩

theorem node_longer (hown : OwnLeaf h P n.leaf vals) (hch : ∀ b c, (b, c) ∈ es → Rep h (P ++ [b]) c (f b) (g b)) {e : Ent V}
    (he : e ∈ vals ++ es.flatMap fun e => f e.1) : ∃ x, P ++ [x] <+: e.1 := by
  rcases node_keys hown hch he with ⟨h1, -⟩ | ⟨b, c, -, -, h1⟩
  · exact ⟨_, by rw [h1]; exact List.prefix_refl _⟩
  · exact ⟨b, h1⟩

theorem Rep.search (hr : Rep h p a E N) : ∀ fuel, K.length < fuel + p.length → p.length ≤ K.length →
    ∃ hit, searchLoopAt h K fuel a p.length = .ok hit ∧ Found p K E N hit := by
  induction hr with
  | @leaf p a n l lc ha hL hpart hw hleaf hl hp hd =>
    intro fuel hf hK
    obtain ⟨fuel, rfl⟩ : ∃ k, fuel = k + 1 := ⟨fuel - 1, by omega⟩
    have hil : n.isLeaf = true := hL.isLeaf_iff.2 ⟨rfl, by rw [hleaf]; simp⟩
    unfold searchLoopAt searchLeaf
    simp only [rd_eq ha, Except.bind_ok, Cell.isLeaf, hil, if_true, hleaf, rdLeaf_eq hl, pure, Except.pure]
    by_cases hm : lc.key = K
    · simp only [leafMatches_iff.2 hm, if_true]
      refine ⟨_, rfl, fun e he hk => ?_, fun hno => absurd hm (hno _ (List.mem_singleton.2 rfl))⟩
      rw [List.mem_singleton.1 he]; exact ⟨rfl, rfl⟩
    · have hlm : leafMatches lc.key K = false := Bool.eq_false_iff.2 fun h => hm (leafMatches_iff.1 h)
      simp only [hlm, Bool.false_eq_true, if_false]
      have hstop : searchStop h a (.inner n) K = .ok { val := none, watch := a } := by
        have h1 : searchOwn h (Cell.inner n : Cell V) K = .ok none := by
          unfold searchOwn
          simp only [Cell.nodeLeaf, hleaf, rdLeaf_eq hl, Except.bind_ok, hlm]
          rfl
        unfold searchStop
        rw [h1, Except.bind_ok]
        simp only [Cell.children]
        rw [searchChildren_none fun c hc => ?_]
        · rfl
        · rcases hL.slots hc with ⟨b, hb⟩ | hb <;> cases hb
      have hfin : Found p K [(lc.key, lc.value, l)] [(p, a)] { val := none, watch := a } :=
        Found.stop rfl rfl (fun e he => by rw [List.mem_singleton.1 he]; exact hm) (by simp)
      obtain ⟨bail, hbail⟩ := prefixBails_ok (V := V) hpart K p.length
      simp only [hbail, Except.bind_ok, hstop, Cell.partialLen]
      cases bail with
      | true => exact ⟨_, rfl, hfin⟩
      | false =>
        simp only [Bool.false_eq_true, if_false]
        by_cases hge : p.length + n.partialLen ≥ K.length
        · rw [if_pos hge]; exact ⟨_, rfl, hfin⟩
        · rw [if_neg hge]
          have hb : byteAt K (p.length + n.partialLen) = .ok (K[p.length + n.partialLen]'(by omega)) := by
            unfold byteAt; rw [List.getElem?_eq_getElem (by omega)]
          simp only [hb, Except.bind_ok, Cell.findChild, hL.find_none (b := K[p.length + n.partialLen]'(by omega)) (by simp)]
          exact ⟨_, rfl, hfin⟩
  | @node p a n pfx es st vals f g ha hL hne hh hst hown hnd htw hch ih =>
    intro fuel hf hK
    obtain ⟨fuel, rfl⟩ : ∃ k, fuel = k + 1 := ⟨fuel - 1, by omega⟩
    unfold searchLoopAt searchLeaf
    simp only [rd_eq ha, Except.bind_ok, Cell.isLeaf, hL.not_leaf hne, Bool.false_eq_true, if_false, pure, Except.pure]
    -- if neither an entry nor a stale leaf has the key
    have hstop : (∀ e ∈ vals ++ es.flatMap (fun e => f e.1), e.1 ≠ K) → (∀ b, b ∈ es.map (·.1) → ¬ p ++ pfx ++ [b] <+: K) →
        searchStop h a (.inner n) K = .ok { val := none, watch := a } := fun h1 h2 => by
      refine searchStop_miss (fun e he => h1 e (by simp [he])) hown fun c hc => ?_
      rcases hL.slots hc with ⟨b, hb⟩ | hb
      · exact (hch b c hb).sokE.mono fun k ⟨e, he, hk⟩ => hk ▸ h1 e (List.mem_append_right _ (List.mem_flatMap.2 ⟨_, hb, he⟩))
      · exact (hst c hb).mono fun k ⟨b, hb, hp⟩ hk => h2 b hb (hk ▸ hp)
    have hlong : ∀ e ∈ vals ++ es.flatMap (fun e => f e.1), ∃ x, p ++ pfx ++ [x] <+: e.1 := fun e he => node_longer hown hch he
    have hfin : (∀ e ∈ vals ++ es.flatMap (fun e => f e.1), e.1 ≠ K) →
        Found p K (vals ++ es.flatMap fun e => f e.1) ((p, a) :: es.flatMap fun e => g e.1) { val := none, watch := a } :=
      fun h1 => Found.stop rfl rfl h1 (by simp)
    obtain ⟨bail, hbail, hbi⟩ := prefixBails_eq (V := V) hh K p.length
    simp only [hbail, Except.bind_ok, Cell.partialLen, hh.len]
    cases bail with
    | true =>
      simp only [if_true]
      -- the path does not match the key
      have hP : ¬ p ++ pfx <+: K := fun hpre => by
        refine absurd (hbi.2 fun t ht => ?_) (by simp)
        obtain ⟨tl, rfl⟩ := hpre
        rw [List.append_assoc, List.drop_left, List.getElem?_append_left (by omega)]
      have hno : ∀ e ∈ vals ++ es.flatMap (fun e => f e.1), e.1 ≠ K := fun e he hk => by
        obtain ⟨x, hx⟩ := hlong e he
        exact hP (hk ▸ (List.prefix_append _ _).trans hx)
      exact ⟨_, hstop hno (fun b _ hb => hP ((List.prefix_append _ _).trans hb)), hfin hno⟩
    | false =>
      simp only [Bool.false_eq_true, if_false]
      by_cases hge : p.length + pfx.length ≥ K.length
      · rw [if_pos hge]
        have hno : ∀ e ∈ vals ++ es.flatMap (fun e => f e.1), e.1 ≠ K := fun e he hk => by
          obtain ⟨x, hx⟩ := hlong e he
          have := hx.length_le
          rw [hk] at this
          simp at this
          omega
        refine ⟨_, hstop hno (fun b _ hb => ?_), hfin hno⟩
        have := hb.length_le
        simp at this
        omega
      · rw [if_neg hge]
        have hlt : p.length + pfx.length < K.length := by omega
        have hb : byteAt K (p.length + pfx.length) = .ok (K[p.length + pfx.length]) := by
          unfold byteAt; rw [List.getElem?_eq_getElem hlt]
        simp only [hb, Except.bind_ok, Cell.findChild]
        generalize hbb : K[p.length + pfx.length] = b
        have hedge : ∀ b', p ++ pfx ++ [b'] <+: K → b' = b := fun b' hb' => by
          obtain ⟨tl, rfl⟩ := hb'
          rw [← hbb]
          simp [List.getElem_append]
        rcases hL.findChild_iff b with ⟨hbn, hfc⟩ | ⟨l, c, r, i, rfl, hfc, -⟩
        · simp only [hfc, Except.bind_ok]
          by_cases hown' : ∃ e ∈ vals, e.1 = K
          · obtain ⟨e, he, hk⟩ := hown'
            rcases hown.inv with ⟨ho, rfl⟩ | ⟨l, lc, ho, rfl, hl, hlk⟩
            · cases he
            · rw [List.mem_singleton.1 he] at hk
              refine ⟨_, searchStop_own ho hl hk, fun e' he' hk' => ?_, fun hno => absurd hk (hno _ (List.mem_append_left _ (List.mem_singleton.2 rfl)))⟩
              rcases List.mem_append.1 he' with he' | he'
              · rw [List.mem_singleton.1 he']; exact ⟨rfl, rfl⟩
              · obtain ⟨⟨b', c'⟩, hb', he'⟩ := List.mem_flatMap.1 he'
                have := (hch b' c' hb').prefix e' he'
                rw [hk'] at this
                exact absurd (List.mem_map.2 ⟨_, hb', hedge b' this⟩) hbn
          · have hno : ∀ e ∈ vals ++ es.flatMap (fun e => f e.1), e.1 ≠ K := fun e he hk => by
              rcases node_keys hown hch he with ⟨-, h2⟩ | ⟨b', c', hb', -, h2⟩
              · exact hown' ⟨e, h2, hk⟩
              · rw [hk] at h2
                exact hbn (List.mem_map.2 ⟨_, hb', hedge b' h2⟩)
            exact ⟨_, hstop hno (fun b' hb' h2 => hbn (hedge b' h2 ▸ hb')), hfin hno⟩
        · simp only [hfc, Except.bind_ok]
          have hbm : (b, c) ∈ l ++ (b, c) :: r := by simp
          have hlen : (p ++ pfx ++ [b]).length = p.length + pfx.length + 1 := by simp [Nat.add_assoc]
          obtain ⟨hit, g1, g2⟩ := ih b c hbm fuel (by rw [hlen]; omega) (by rw [hlen]; omega)
          rw [hlen] at g1
          refine ⟨hit, g1, fun e he hk => ?_, fun hno => ?_⟩
          · rcases node_keys hown hch he with ⟨h1, h2⟩ | ⟨b', c', hb', he', h2⟩
            · have h3 : Art.dollar = b := hedge _ (by rw [← hk, h1]; exact List.prefix_refl _)
              rcases hown.inv with ⟨ho, rfl⟩ | ⟨l', lc, ho, rfl, hl, hlk⟩
              · cases h2
              · exact absurd (List.mem_map.2 ⟨_, hbm, h3.symm⟩) (hnd (by rw [ho]; simp))
            · have := hedge b' (by rw [← hk]; exact h2)
              subst this
              exact g2.found e he' hk
          · obtain ⟨h1, q, h2, h3⟩ := g2.miss fun e he => hno e (List.mem_append_right _ (List.mem_flatMap.2 ⟨_, hbm, he⟩))
            refine ⟨h1, q, List.mem_cons_of_mem _ (List.mem_flatMap.2 ⟨_, hbm, h2⟩), fun hp hshort => h3 ?_ fun e he =>
              hshort e (List.mem_append_right _ (List.mem_flatMap.2 ⟨_, hbm, he⟩))⟩
            obtain ⟨e, he⟩ := List.exists_mem_of_ne_nil _ (hch b c hbm).ne_nil
            have h4 := ((hch b c hbm).prefix e he).length_le
            have h5 := hshort e (List.mem_append_right _ (List.mem_flatMap.2 ⟨_, hbm, he⟩))
            simp only [List.length_append, List.length_cons, List.length_nil] at h4
            obtain ⟨K', rfl⟩ := hp
            have h6 := hbi.1 rfl
            rw [List.drop_left] at h6
            have h7 : pfx <+: K' := prefix_iff_get.2 fun t ht => h6 t (by omega)
            obtain ⟨tl, rfl⟩ := h7
            cases tl with
            | nil => simp at hlt
            | cons x tl =>
              have : x = b := by rw [← hbb]; simp [List.getElem_append]
              subst this
              exact ⟨tl, by simp⟩

end Art
