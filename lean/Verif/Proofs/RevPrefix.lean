import Verif.Proofs.CleanPath
/-
`SeekPrefix` of a reverse iterator on a well-formed tree.
-/
set_option autoImplicit false
set_option linter.unusedVariables false
set_option linter.unusedSimpArgs false
set_option linter.unusedSectionVars false
namespace Art
variable {V : Type} [Removals] {h : Heap V} {E : List (Ent V)} {N : List (Key × Addr)} {K p pfx pre : Key} {a : Addr} {n : Inner} {es : Edges} {st : Option Addr} {full : Bool}
  {m : Map V} {t : Tree}

/-- If some key has the prefix, all keys below the node where `SeekPrefix` ends have it. -/
theorem Rep.seekAll (hr : Rep h p a E N) : ∀ fuel, p <+: pre → pre.length < fuel + p.length → (∀ e ∈ E, pre ≠ e.1) → (∃ e ∈ E, pre <+: e.1) →
    ∃ x q A E' B N', seekLoop h pre fuel a p.length = .ok x ∧ Rep h q x E' N' ∧ E = A ++ E' ++ B ∧
      (∀ e ∈ A, ¬ pre <+: e.1) ∧ (∀ e ∈ E', pre <+: e.1) ∧ ∀ e ∈ B, ¬ pre <+: e.1 := by
  induction hr with
  | @leaf p a n l lc ha hL hpart hw hleaf hl hp hd =>
    intro fuel hpre hf hnk ⟨e0, he0, hpe⟩
    cases List.mem_singleton.1 he0
    obtain ⟨x, hx, -⟩ := (Rep.leaf (n := n) ha hL hpart hw hleaf hl hp hd).seek fuel hpre hf
    have hxa : x = a := by
      obtain ⟨fuel, rfl⟩ : ∃ k, fuel = k + 1 := ⟨fuel - 1, by have := hpre.length_le; omega⟩
      have hil : n.isLeaf = true := hL.isLeaf_iff.2 ⟨rfl, by rw [hleaf]; simp⟩
      unfold seekLoop seekStep at hx
      simp only [rd_eq ha, Except.bind_ok, Cell.isLeaf, hil, Bool.not_true, Bool.false_eq_true, false_and, if_false, pure, Except.pure] at hx
      by_cases hge : p.length ≥ pre.length
      · rw [if_pos hge] at hx; cases hx; rfl
      · rw [if_neg hge] at hx
        have hb : byteAt pre p.length = .ok (pre[p.length]'(by omega)) := by
          unfold byteAt; rw [List.getElem?_eq_getElem (by omega)]
        simp only [hb, Except.bind_ok, Cell.findChild, hL.find_none (b := pre[p.length]'(by omega)) (by simp)] at hx
        cases hx; rfl
    subst hxa
    exact ⟨x, p, [], _, [], _, hx, .leaf ha hL hpart hw hleaf hl hp hd, by simp, by simp, by simpa using hpe, by simp⟩
  | @node p a n pfx es st vals f g ha hL hne hh hst hown hnd htw hch ih =>
    intro fuel hpre hf hnk ⟨e0, he0, hpe0⟩
    have hrep : Rep h p a _ _ := .node ha hL hne hh hst hown hnd htw hch
    have hlong : ∀ e ∈ vals ++ es.flatMap (fun e => f e.1), p ++ pfx <+: e.1 := fun e he => by
      obtain ⟨x, hx⟩ := node_longer hown hch he
      exact (List.prefix_append _ _).trans hx
    have hfin : pre <+: p ++ pfx → ∃ x q A E' B N', Except.ok a = (.ok x : R Addr) ∧ Rep h q x E' N' ∧
        vals ++ es.flatMap (fun e => f e.1) = A ++ E' ++ B ∧
        (∀ e ∈ A, ¬ pre <+: e.1) ∧ (∀ e ∈ E', pre <+: e.1) ∧ ∀ e ∈ B, ¬ pre <+: e.1 := fun hp =>
      ⟨a, p, [], _, [], _, rfl, hrep, by simp, by simp, fun e he => hp.trans (hlong e he), by simp⟩
    obtain ⟨fuel, rfl⟩ : ∃ k, fuel = k + 1 := ⟨fuel - 1, by have := hpre.length_le; omega⟩
    obtain ⟨K', hK'⟩ := hpre
    have hcmp : pre <+: p ++ pfx ∨ p ++ pfx <+: pre := by
      rcases Nat.le_total pre.length (p ++ pfx).length with h | h
      · exact Or.inl (List.prefix_of_prefix_length_le hpe0 (hlong e0 he0) h)
      · exact Or.inr (List.prefix_of_prefix_length_le (hlong e0 he0) hpe0 h)
    unfold seekLoop
    have hstep : ∃ stop d, seekStep h a (.inner n : Cell V) pre p.length = .ok (stop, d) ∧
        (stop = true → ¬ pfx <+: K') ∧ (stop = false → pfx <+: K' ∧ d = p.length + pfx.length) := by
      unfold seekStep
      simp only [Cell.isLeaf, hL.not_leaf hne, Bool.not_false, true_and, Cell.partialLen, hh.len]
      by_cases h0 : pfx.length > 0
      · rw [if_pos h0]
        obtain ⟨e, he, hmin⟩ := hrep.minAt
        obtain ⟨lc, h1, h2⟩ := hrep.leaf_of e he
        obtain ⟨r, h3, h4⟩ := prefixMismatch_any (K := pre) ha hh hK'.symm ⟨e.2.2, lc, hmin, h1, by rw [h2.1]; exact hlong e he⟩
        simp only [h3, Except.bind_ok, pure, Except.pure]
        by_cases hlt : r < pfx.length
        · rw [if_pos hlt]; exact ⟨_, _, rfl, fun _ hp => absurd (h4.2 hp) (by omega), fun h => nomatch h⟩
        · rw [if_neg hlt]; exact ⟨_, _, rfl, (fun h => nomatch h), fun _ => ⟨h4.1 (by omega), rfl⟩⟩
      · rw [if_neg h0]
        have : pfx = [] := List.length_eq_zero_iff.1 (by omega)
        subst this
        exact ⟨_, _, rfl, (fun h => nomatch h), fun _ => ⟨List.nil_prefix, rfl⟩⟩
    obtain ⟨stop, d, hs, hs1, hd⟩ := hstep
    simp only [rd_eq ha, Except.bind_ok, hs, pure, Except.pure]
    cases stop with
    | true =>
      simp only [if_true]
      refine hfin (hcmp.resolve_right fun hp => hs1 rfl ?_)
      rw [← hK'] at hp
      exact (List.prefix_append_right_inj p).1 hp
    | false =>
      obtain ⟨hpx, rfl⟩ := hd rfl
      simp only [Bool.false_eq_true, if_false]
      by_cases hge : p.length + pfx.length ≥ pre.length
      · rw [if_pos hge]
        exact hfin (List.prefix_of_prefix_length_le hpe0 (hlong e0 he0) (by rw [List.length_append]; omega))
      · rw [if_neg hge]
        have hPp : p ++ pfx <+: pre := by rw [← hK']; exact (List.prefix_append_right_inj p).2 hpx
        obtain ⟨b, hb⟩ : ∃ b, pre[p.length + pfx.length]? = some b := ⟨_, List.getElem?_eq_getElem (by omega)⟩
        have hPb : p ++ pfx ++ [b] <+: pre := by
          obtain ⟨t, rfl⟩ := hPp
          rw [List.getElem?_append_right (by rw [List.length_append]; omega)] at hb
          cases t with
          | nil => simp at hb
          | cons c t =>
            simp only [List.length_append, Nat.sub_self, List.getElem?_cons_zero, Option.some.injEq] at hb
            subst hb
            exact ⟨t, by simp⟩
        have hbyte : byteAt pre (p.length + pfx.length) = .ok b := by unfold byteAt; rw [hb]
        simp only [hbyte, Except.bind_ok, Cell.findChild]
        have hside : ∀ (b' : Byte) (c' : Addr), (b', c') ∈ es → b' ≠ b → ∀ e ∈ f b', ¬ pre <+: e.1 := fun b' c' hb' hne' e he hpe =>
          hne' (prefix_edge ((hch b' c' hb').prefix e he) (hPb.trans hpe))
        have hsideV : ∀ e ∈ vals, pre <+: e.1 → ∃ l, n.leaf = some l ∧ b = Art.dollar := fun e he hpe => by
          rcases hown.inv with ⟨-, rfl⟩ | ⟨l', lc', ho, rfl, hl', hk'⟩
          · cases he
          · cases List.mem_singleton.1 he
            simp only [hk'] at hpe
            exact ⟨l', ho, prefix_edge (hPb.trans hpe) (List.prefix_refl _)⟩
        rcases hL.findChild_iff b with ⟨hnone, hf0⟩ | ⟨l, c, r, i, hes, hf1, -⟩
        · simp only [hf0, Except.bind_ok]
          exfalso
          rcases List.mem_append.1 he0 with he | he
          · obtain ⟨l, h1, rfl⟩ := hsideV e0 he hpe0
            refine hnk e0 he0 ?_
            rcases hown.inv with ⟨-, rfl⟩ | ⟨l', lc', ho, rfl, hl', hk'⟩
            · cases he
            · cases List.mem_singleton.1 he
              simp only [hk'] at hpe0 ⊢
              exact hpe0.eq_of_length_le (hPb.length_le)
          · obtain ⟨⟨b', c'⟩, hb', he⟩ := List.mem_flatMap.1 he
            refine hside b' c' hb' (fun hbb => ?_) e0 he hpe0
            subst hbb
            exact hnone (List.mem_map.2 ⟨_, hb', rfl⟩)
        · simp only [hf1, Except.bind_ok]
          have hmem : (b, c) ∈ es := by rw [hes]; simp
          have hsort := hL.sorted
          rw [hes] at hsort
          have hnd' := hsort.nodup
          rw [List.map_append, List.map_cons, List.nodup_append] at hnd'
          have hin : e0 ∈ f b := by
            rcases List.mem_append.1 he0 with he | he
            · exfalso
              obtain ⟨l, h1, rfl⟩ := hsideV e0 he hpe0
              exact hnd (by rw [h1]; simp) (List.mem_map.2 ⟨_, hmem, rfl⟩)
            · obtain ⟨⟨b', c'⟩, hb', he⟩ := List.mem_flatMap.1 he
              by_cases hbb : b' = b
              · subst hbb; exact he
              · exact absurd hpe0 (hside b' c' hb' hbb e0 he)
          have hl' : (p ++ pfx ++ [b]).length = p.length + pfx.length + 1 := by simp only [List.length_append, List.length_cons, List.length_nil]
          obtain ⟨x, q, A, E', B, N', hx1, g1, g4, g5, g7, g6⟩ := ih b c hmem fuel hPb (by rw [hl']; omega) (fun e he => hnk e (List.mem_append_right _ (List.mem_flatMap.2 ⟨_, hmem, he⟩))) ⟨e0, hin, hpe0⟩
          rw [hl'] at hx1
          refine ⟨x, q, vals ++ l.flatMap (fun e => f e.1) ++ A, E', B ++ r.flatMap (fun e => f e.1), N', hx1, g1, ?_, ?_, g7, ?_⟩
          · rw [hes, List.flatMap_append, List.flatMap_cons, g4]; simp only [List.append_assoc]
          · intro e he
            rcases List.mem_append.1 he with he | he
            · rcases List.mem_append.1 he with he | he
              · intro hpe
                obtain ⟨l, h1, rfl⟩ := hsideV e he hpe
                exact hnd (by rw [h1]; simp) (List.mem_map.2 ⟨_, hmem, rfl⟩)
              · obtain ⟨⟨b', c'⟩, hb', he⟩ := List.mem_flatMap.1 he
                refine hside b' c' (by rw [hes]; exact List.mem_append_left _ hb') (fun hbb => ?_) e he
                exact hnd'.2.2 b' (List.mem_map.2 ⟨_, hb', rfl⟩) b (by simp) hbb
            · exact g5 e he
          · intro e he
            rcases List.mem_append.1 he with he | he
            · exact g6 e he
            · obtain ⟨⟨b', c'⟩, hb', he⟩ := List.mem_flatMap.1 he
              refine hside b' c' (by rw [hes]; exact List.mem_append_right _ (List.mem_cons_of_mem _ hb')) (fun hbb => ?_) e he
              exact (List.nodup_cons.1 hnd'.2.1).1 (List.mem_map.2 ⟨_, hb', hbb⟩)

/-! ### The iteration -/

/-- The state of a reverse iterator positioned by `SeekPrefix`. -/
def revIn (pre : Key) (o : Option Addr) (stk : List (Option Addr)) : RevIter := { path := pre, node := o, stack := some stk, expanded := [] }

theorem revPrevious_in (pre : Key) (o : Option Addr) (stk : List (Option Addr)) (F : Nat) :
    revPrevious h F (revIn pre o stk) = (revNext h pre [] F stk >>= fun q => .ok (q.1, revIn pre o q.2)) := rfl

/-- Does a reverse iterator with the given prefix return the entry? -/
def Ent.within (pre : Key) (e : Ent V) : Bool := pre.isPrefixOf (getKey e.1)

/-- The entry has the prefix, or is too large to be returned. -/
def Ent.Suits (pre : Key) (e : Ent V) : Prop := Ent.within pre e = true ∨ leBytes (getKey e.1) (getKey pre) = false

theorem revIn_leaf {o : Option Addr} {lc : LeafC V} {l : Addr} (hl : h[l]? = some (.leaf lc)) (hk : leBytes (getKey lc.key) (getKey pre) = false)
    (rest : List (Option Addr)) (r : List (Key × V)) (hg : (revM h).Gives (revIn pre o rest) r) : (revM h).Gives (revIn pre o (some l :: rest)) r := by
  refine (revM h).gives_skip (fun F => ?_) hg
  simp only [revM_next]
  rw [revPrevious_in, revPrevious_in, revNext]
  simp only [rd_eq hl, Except.bind_ok, hk, Bool.false_eq_true, if_false]

theorem cmpBytes_longer {k : Key} : ∀ {pre : Key}, pre <+: k → ∀ b : Byte, cmpBytes (k ++ [b]) pre = .gt
  | [], _, b => by cases k <;> rfl
  | x :: pre, hp, b => by
    obtain ⟨t, rfl⟩ := hp
    have := cmpBytes_longer (List.prefix_append pre t) b
    simp only [List.cons_append, cmpBytes]
    simpa using this

theorem leBytes_longer {k : Key} (hp : pre <+: k) (b : Byte) : leBytes (k ++ [b]) pre = false := by
  unfold leBytes
  rw [cmpBytes_longer hp]; rfl

theorem revIn_push {o : Option Addr} {lc : LeafC V} {l : Addr} {k : Key} (hpre : pre ≠ []) (hl : h[l]? = some (.leaf lc)) (hk : lc.key = k ++ [dollar])
    (hs : Ent.Suits pre (lc.key, lc.value, l)) (rest : List (Option Addr)) (r : List (Key × V)) (hg : (revM h).Gives (revIn pre o rest) r) :
    (revM h).Gives (revIn pre o (revLeafPush pre (some (l, lc)) rest)) r := by
  have hlen : pre.length ≠ 0 := fun h => hpre (List.length_eq_zero_iff.1 h)
  simp only [revLeafPush, hlen, or_false]
  rcases hs with hs | hs
  · simp only [Ent.within, hk, getKey_snoc, List.isPrefixOf_iff_prefix] at hs
    rw [hk, leBytes_longer hs, if_neg (by simp)]
    exact hg
  · split
    · exact revIn_leaf hl hs _ _ hg
    · exact hg

theorem revIn_own {o : Option Addr} {lc : LeafC V} {l : Addr} (hpre : pre ≠ []) (ha : h[a]? = some (.inner n)) (ho : n.leaf = some l)
    (hl : h[l]? = some (.leaf lc)) (rest : List (Option Addr)) (r : List (Key × V))
    (hg : (revM h).Gives (revIn pre o (n.revChildren ++ revLeafPush pre (some (l, lc)) rest)) r) :
    (revM h).Gives (revIn pre o (some a :: rest)) (([(lc.key, lc.value, l)].filter (Ent.within pre)).map Ent.out ++ r) := by
  have hlen : pre.length ≠ 0 := fun h => hpre (List.length_eq_zero_iff.1 h)
  have h1 : hasPrefix (getKey lc.key) pre = Ent.within pre (lc.key, lc.value, l) := by
    simp only [hasPrefix, if_neg hlen, hasPrefixB, Ent.within]
  cases hw : Ent.within pre (lc.key, lc.value, l) with
  | true =>
    rw [List.filter_cons_of_pos hw]
    refine (revM h).gives_yield (fun F => ?_) hg
    simp only [revM_next]
    rw [revPrevious_in, revNext]
    simp only [rd_eq ha, Except.bind_ok, ho, leafOf, rdLeaf_eq hl, pure, Except.pure, List.contains_nil, Bool.false_eq_true, if_false, h1, hw, if_true]
    rfl
  | false =>
    rw [List.filter_cons_of_neg (by rw [hw]; simp)]
    refine (revM h).gives_skip (fun F => ?_) hg
    simp only [revM_next]
    rw [revPrevious_in, revPrevious_in, revNext]
    simp only [rd_eq ha, Except.bind_ok, ho, leafOf, rdLeaf_eq hl, pure, Except.pure, List.contains_nil, Bool.false_eq_true, if_false, h1, hw]

theorem Rep.revIn (hpre : pre ≠ []) (hr : Rep h p a E N) (o : Option Addr) : (∀ e ∈ E, Ent.Suits pre e) → ∀ (rest : List (Option Addr)) (r : List (Key × V)),
    (revM h).Gives (Art.revIn pre o rest) r →
    ∃ L, L.Perm (E.filter (Ent.within pre)) ∧ (PFree E → L = (E.filter (Ent.within pre)).reverse) ∧
      (revM h).Gives (Art.revIn pre o (some a :: rest)) (L.map Ent.out ++ r) := by
  induction hr with
  | @leaf p a n l lc ha hL hpart hw hleaf hl hp hd =>
    intro hs rest r hg
    obtain ⟨k, hk⟩ := (Rep.leaf (n := n) ha hL hpart hw hleaf hl hp hd).dollar (lc.key, lc.value, l) (by simp)
    refine ⟨_, .refl _, fun _ => ?_, revIn_own hpre ha hleaf hl rest r ?_⟩
    · rw [List.filter_cons]; split <;> rfl
    · simp only [Inner.revChildren, hL.iterChildren, List.map_nil, List.reverse_nil, List.nil_append]
      exact revIn_push hpre hl hk (hs _ (by simp)) rest r hg
  | @node p a n pfx es st vals f g ha hL hne hh hst hown hnd htw hch ih =>
    intro hs rest r hg
    have hsub : ∀ b c, (b, c) ∈ es → ∀ e ∈ f b, e ∈ vals ++ es.flatMap fun e => f e.1 := fun b c hb e he =>
      List.mem_append_right _ (List.mem_flatMap.2 ⟨_, hb, he⟩)
    have hkids : ∀ ds : Edges, (∀ b c, (b, c) ∈ ds → (b, c) ∈ es) → ∀ rest (r : List (Key × V)), (revM h).Gives (Art.revIn pre o rest) r →
        ∃ L, L.Perm (ds.flatMap fun e => (f e.1).filter (Ent.within pre)) ∧
          (PFree (vals ++ es.flatMap fun e => f e.1) → L = ds.flatMap fun e => ((f e.1).filter (Ent.within pre)).reverse) ∧
          (revM h).Gives (Art.revIn pre o (ds.map (fun e => some e.2) ++ rest)) (L.map Ent.out ++ r) := by
      intro ds hds rest r hg
      induction ds with
      | nil => exact ⟨[], .refl _, fun _ => rfl, by simpa using hg⟩
      | cons d ds ihd =>
        obtain ⟨b, c⟩ := d
        obtain ⟨L1, h1, h2, h3⟩ := ihd fun b c hb => hds b c (by simp [hb])
        have hb := hds b c (by simp)
        obtain ⟨L2, h4, h5, h6⟩ := ih b c hb (fun e he => hs e (hsub b c hb e he)) _ _ h3
        refine ⟨L2 ++ L1, ?_, fun hp => ?_, ?_⟩
        · rw [List.flatMap_cons]; exact h4.append h1
        · rw [List.flatMap_cons, h2 hp, h5 (hp.sub (hsub b c hb))]
        · simpa [List.map_append, List.append_assoc] using h6
    have hrc : n.revChildren = es.reverse.map fun e => some e.2 := by rw [Inner.revChildren, hL.iterChildren, List.map_reverse]
    have hperm : (es.reverse.flatMap fun e => (f e.1).filter (Ent.within pre)).Perm ((es.flatMap fun e => f e.1).filter (Ent.within pre)) := by
      rw [List.filter_flatMap]
      exact (List.reverse_perm es).flatMap_right _
    rcases hown.inv with ⟨ho, rfl⟩ | ⟨l, lc, ho, rfl, hl, hkey⟩
    · obtain ⟨L, h1, h2, h3⟩ := hkids es.reverse (fun b c hb => by simpa using hb) rest r hg
      refine ⟨L, h1.trans hperm, fun hp => ?_, ?_⟩
      · rw [h2 hp, List.nil_append, List.filter_flatMap, List.reverse_flatMap]; rfl
      · refine (revM h).gives_skip (fun F => ?_) h3
        simp only [revM_next]
        rw [revPrevious_in, revPrevious_in, revNext]
        simp only [rd_eq ha, Except.bind_ok, ho, leafOf, pure, Except.pure, hrc]
        rfl
    · obtain ⟨L, h1, h2, h3⟩ := hkids es.reverse (fun b c hb => by simpa using hb) _ r
        (revIn_push hpre hl hkey (hs (lc.key, lc.value, l) (by simp)) rest r hg)
      rw [← hrc] at h3
      refine ⟨[(lc.key, lc.value, l)].filter (Ent.within pre) ++ L, ?_, fun hp => ?_, ?_⟩
      · rw [List.filter_append]
        exact (List.Perm.refl _).append (h1.trans hperm)
      · exfalso
        obtain ⟨⟨b, c⟩, es', rfl⟩ := List.exists_cons_of_ne_nil hne.ne
        obtain ⟨e, E', he, -⟩ := (hch b c (by simp)).minimum
        have hpre := (hch b c (by simp)).prefix e (by rw [he]; simp)
        obtain ⟨k, hk⟩ := (hch b c (by simp)).dollar e (by rw [he]; simp)
        have hin := hsub b c (by simp) e (by rw [he]; simp)
        have h0 := hp (lc.key, lc.value, l) (by simp) e hin (by
          simp only [Ent.out, hkey, hk, getKey_snoc]
          rw [hk] at hpre
          rcases prefix_dollar.1 hpre with h | h
          · exact (List.prefix_append _ _).trans h
          · rw [(snoc2 h).1]; exact List.prefix_refl _)
        rw [h0] at hpre
        simp only [hkey] at hpre
        have := prefix_edge hpre (List.prefix_refl _)
        exact hnd (by rw [ho]; simp) (by rw [← this]; simp)
      · rw [List.map_append, List.append_assoc]
        exact revIn_own hpre ha ho hl rest _ h3

/-- `SeekPrefix` of a reverse iterator, if a key has the prefix, or no key is at most the prefix without its last byte. -/
theorem ViewOf.revPrefix {ex : Bool} (hv : ViewOf ex h t.root t.size full m) (hne : m ≠ []) (hp0 : pre ≠ []) (hpd : ∀ k, m.has k → pre ≠ k ++ [dollar])
    (hor : (∃ k, m.has k ∧ pre <+: k) ∨ ∀ k, m.has k → cmpBytes k pre.dropLast = .gt) :
    ∃ l, Ends (iterReversePrefix h t pre) l ∧ l.Perm (m.filter fun e => pre <+: e.1) ∧ (m.PrefixFree → l.Pairwise fun a b => Key.lt b.1 a.1) := by
  obtain ⟨E, N, hr, ha⟩ := hv.entries hne
  have hkey : ∀ e ∈ E, ∃ k, e.1 = k ++ [dollar] ∧ m.has k ∧ (pre <+: e.1 ↔ pre <+: k) := fun e he => by
    obtain ⟨k, hk⟩ := hr.dollar e he
    have hh : m.has k := ⟨_, ha.mem he hk⟩
    refine ⟨k, hk, hh, ?_⟩
    rw [hk, prefix_dollar]
    exact ⟨fun h => h.resolve_right (hpd k hh), Or.inl⟩
  have hwi : ∀ e ∈ E, (Ent.within pre e = true ↔ pre <+: e.1) := fun e he => by
    obtain ⟨k, hk, -, h1⟩ := hkey e he
    rw [h1, Ent.within, hk, getKey_snoc, List.isPrefixOf_iff_prefix]
  have hseek : ∃ x q A E' B N', seekLoop h pre (pre.length + 1) t.root 0 = .ok x ∧ Rep h q x E' N' ∧ E = A ++ E' ++ B ∧
      (∀ e ∈ A, ¬ pre <+: e.1) ∧ (∀ e ∈ E', Ent.Suits pre e) ∧ ∀ e ∈ B, ¬ pre <+: e.1 := by
    rcases hor with ⟨k, hk, hp⟩ | hgt
    · obtain ⟨e, he, hek⟩ := ha.has.1 hk
      obtain ⟨x, q, A, E', B, N', h1, h2, h3, h4, h5, h6⟩ := hr.seekAll (pre := pre) (pre.length + 1) List.nil_prefix (by simp) (fun e he hc => by
        obtain ⟨k, hk, hh, -⟩ := hkey e he
        exact hpd k hh (hc.trans hk)) ⟨e, he, by rw [hek]; exact hp.trans (List.prefix_append _ _)⟩
      exact ⟨x, q, A, E', B, N', h1, h2, h3, h4, fun e he => Or.inl ((hwi e (by rw [h3]; simp [he])).2 (h5 e he)), h6⟩
    · obtain ⟨x, h1, q, A, E', B, N', h2, -, -, h3, h4, h5⟩ := hr.seek (pre := pre) (pre.length + 1) List.nil_prefix (by simp)
      refine ⟨x, q, A, E', B, N', h1, h2, h3, h4, fun e he => Or.inr ?_, h5⟩
      obtain ⟨k, hk, hh, -⟩ := hkey e (by rw [h3]; simp [he])
      have h7 : getKey pre = pre.dropLast := by
        unfold getKey
        rw [if_neg (fun h => hp0 (List.length_eq_zero_iff.1 h)), List.dropLast_eq_take]
      rw [hk, getKey_snoc, h7, leBytes, hgt k hh]; rfl
  obtain ⟨x, q, A, E', B, N', h1, h2, h3, h4, h5, h6⟩ := hseek
  obtain ⟨L, g1, g2, g3⟩ := h2.revIn hp0 (some x) h5 [] [] ((revM h).gives_stop (s' := Art.revIn pre (some x) []) fun F => by
    rw [revM_next, revPrevious_in, revNext]; rfl)
  rw [List.append_nil] at g3
  have hfil : E.filter (Ent.within pre) = E'.filter (Ent.within pre) := by
    have hA : A.filter (Ent.within pre) = [] := List.filter_eq_nil_iff.2 fun e he hw => h4 e he ((hwi e (by rw [h3]; simp [he])).1 hw)
    have hB : B.filter (Ent.within pre) = [] := List.filter_eq_nil_iff.2 fun e he hw => h6 e he ((hwi e (by rw [h3]; simp [he])).1 hw)
    rw [h3, List.filter_append, List.filter_append, hA, hB, List.nil_append, List.append_nil]
  have hsel : E.filter (Ent.within pre) = E.filter (Ent.sel pre) := List.filter_congr fun e he => by
    rw [Bool.eq_iff_iff, hwi e he, Ent.sel_iff]
  refine ⟨L.map Ent.out, ?_, ?_, fun hp => ?_⟩
  · obtain ⟨n, hn⟩ := Machine.Gives.ends (revM h) g3
    refine ⟨n, fun F hF => ?_⟩
    unfold iterReversePrefix revSeekPrefix mkRevIter
    simp only [h1, Except.bind_ok, pure, Except.pure]
    exact hn F hF
  · rw [← hfil, hsel] at g1
    refine (g1.map _).trans ?_
    rw [filter_map_sel hr ha hpd]
    exact (ha.perm hr hv.nodup).filter _
  · have hpf : PFree E := fun e he e' he' hpre => by
      obtain ⟨k, hk, hh, -⟩ := hkey e he
      obtain ⟨k', hk', hh', -⟩ := hkey e' he'
      simp only [Ent.out, hk, hk', getKey_snoc] at hpre
      rw [hk, hk', hp k k' hh hh' hpre]
    have hord : m.Ordered := fun k k' b hk hk' hb => by
      have := hp k k' hk hk' ((List.prefix_append _ _).trans hb)
      subst this
      exact absurd hb.length_le (by simp)
    rw [g2 (hpf.sub fun e he => by rw [h3]; simp [he]), ← hfil, List.map_reverse, List.pairwise_reverse]
    exact (ha.sorted hr hord).sublist ((List.filter_sublist).map _)

end Art
