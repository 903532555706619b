import Verif.Proofs.RepTxn
/-
`SeekPrefix` and the forward iterator on a well-formed tree.
-/
set_option autoImplicit false
set_option linter.unusedVariables false
set_option linter.unusedSimpArgs false
set_option linter.unusedSectionVars false
namespace Art
variable {V : Type} [Removals] {h : Heap V} {E : List (Ent V)} {N : List (Key × Addr)} {K p pfx pre : Key} {a : Addr} {n : Inner} {es : Edges} {st : Option Addr} {full : Bool}

/-- `prefixMismatch` for any key, which may end inside the prefix of the node. -/
theorem prefixMismatch_any {K' : Key} (ha : h[a]? = some (.inner n)) (hh : Header n pfx) (hK : K = p ++ K')
    (hmin : ∃ (e : Addr) (lc : LeafC V), minimum h (some a) = .ok (some e) ∧ h[e]? = some (.leaf lc) ∧ p ++ pfx <+: lc.key) :
    ∃ r, prefixMismatch h a K K.length p.length = .ok r ∧ (pfx.length ≤ r ↔ pfx <+: K') := by
  unfold prefixMismatch
  have hdrop : K.drop p.length = K' := by rw [hK, List.drop_left]
  have hlen : K.length - p.length = K'.length := by rw [hK, List.length_append]; omega
  simp only [rd_eq ha, Except.bind_ok, Cell.partialLen, Cell.part, hh.len, hdrop, hlen, maxPrefixLen]
  obtain ⟨j, stop, g1, -, g3, g4, g5, g6⟩ := scanEq_spec n.part K' (min (min 10 pfx.length) K'.length) 0 (by rw [hh.part]; omega) (by omega)
  rw [g1]
  simp only [Except.bind_ok]
  have hpre : ∀ t, t < min 10 pfx.length → n.part[t]? = pfx[t]? := fun t ht => hh.byte (by omega) (by omega)
  have hbad : ∀ t, t < pfx.length → pfx[t]? ≠ K'[t]? → ¬ pfx <+: K' := fun t ht hne hp => hne (prefix_iff_get.1 hp t ht)
  cases hs : stop with
  | true =>
    obtain ⟨g7, g8⟩ := g6 hs
    refine ⟨j, rfl, fun h => by omega, fun h => absurd h (hbad j (by omega) ?_)⟩
    rw [← hpre j (by omega)]; exact g8
  | false =>
    simp only [Bool.false_eq_true, if_false]
    have hj := g5 hs
    have hall : ∀ t, t < j → pfx[t]? = K'[t]? := fun t ht => by rw [← hpre t (by omega), g4 t (by omega) ht]
    have hlenle : pfx <+: K' → pfx.length ≤ K'.length := fun h => h.length_le
    by_cases hp : pfx.length > 10
    · rw [if_pos hp]
      obtain ⟨e, lc, hm1, hm2, hm3⟩ := hmin
      simp only [hm1, Except.bind_ok, rdLeaf_eq hm2, pure, Except.pure]
      obtain ⟨tl, htl⟩ := hm3
      have hld : lc.key.drop p.length = pfx ++ tl := by rw [← htl, List.append_assoc, List.drop_left]
      have hll : lc.key.length = p.length + pfx.length + tl.length := by rw [← htl]; simp only [List.length_append]
      have hKl : K.length = p.length + K'.length := by rw [hK, List.length_append]
      rw [hld]
      obtain ⟨j2, stop2, k1, k2, k3, k4, k5, k6⟩ := scanEq_spec (pfx ++ tl) K' (min lc.key.length K.length - p.length - j) j
        (by rw [List.length_append]; omega) (by omega)
      simp only [k1]
      have hpt : ∀ t, t < pfx.length → (pfx ++ tl)[t]? = pfx[t]? := fun t ht => List.getElem?_append_left ht
      have hall2 : ∀ t, t < j2 → (pfx ++ tl)[t]? = K'[t]? := fun t ht => by
        by_cases htj : t < j
        · rw [hpt t (by omega), hall t htj]
        · exact k4 t (by omega) ht
      refine ⟨j2, rfl, fun h => prefix_iff_get.2 fun t ht => by rw [← hpt t ht, hall2 t (by omega)], fun h => ?_⟩
      have hle := hlenle h
      refine Nat.le_of_not_lt fun hlt => ?_
      cases hs2 : stop2 with
      | true =>
        obtain ⟨k7, k8⟩ := k6 hs2
        exact hbad j2 hlt (by rw [← hpt j2 hlt]; exact k8) h
      | false =>
        have := k5 hs2
        omega
    · rw [if_neg hp]
      refine ⟨j, rfl, fun h => prefix_iff_get.2 fun t ht => hall t (by omega), fun h => ?_⟩
      have hle := hlenle h
      omega

/-- Where `SeekPrefix` ends: below a node `x` on the path of the prefix lie all entries with the prefix. -/
structure Sought (h : Heap V) (pre : Key) (E : List (Ent V)) (N : List (Key × Addr)) (x : Addr) : Prop where
  rep : ∃ q A E' B N', Rep h q x E' N' ∧ (q, x) ∈ N ∧ q <+: pre ∧ E = A ++ E' ++ B ∧ (∀ e ∈ A, ¬ pre <+: e.1) ∧ ∀ e ∈ B, ¬ pre <+: e.1

theorem Sought.here (hr : Rep h p a E N) (hp : p <+: pre) (hN : (p, a) ∈ N) : Sought h pre E N a :=
  ⟨p, [], E, [], N, hr, hN, hp, by simp, by simp, by simp⟩

theorem Rep.minAt (hr : Rep h p a E N) : ∃ (e : Ent V), e ∈ E ∧ Art.minimum h (some a) = .ok (some e.2.2) := by
  obtain ⟨e, E', rfl, h1⟩ := hr.minimum
  exact ⟨e, by simp, h1⟩

theorem Rep.seek (hr : Rep h p a E N) : ∀ fuel, p <+: pre → pre.length < fuel + p.length →
    ∃ x, seekLoop h pre fuel a p.length = .ok x ∧ Sought h pre E N x := by
  induction hr with
  | @leaf p a n l lc ha hL hpart hw hleaf hl hp hd =>
    intro fuel hpre hf
    obtain ⟨fuel, rfl⟩ : ∃ k, fuel = k + 1 := ⟨fuel - 1, by have := hpre.length_le; omega⟩
    have hil : n.isLeaf = true := hL.isLeaf_iff.2 ⟨rfl, by rw [hleaf]; simp⟩
    have hfin : Sought h pre [(lc.key, lc.value, l)] [(p, a)] a := Sought.here (.leaf ha hL hpart hw hleaf hl hp hd) hpre (by simp)
    unfold seekLoop seekStep
    simp only [rd_eq ha, Except.bind_ok, Cell.isLeaf, hil, Bool.not_true, Bool.false_eq_true, false_and, if_false, pure, Except.pure]
    by_cases hge : p.length ≥ pre.length
    · rw [if_pos hge]; exact ⟨_, rfl, hfin⟩
    · rw [if_neg hge]
      have hb : byteAt pre p.length = .ok (pre[p.length]'(by omega)) := by
        unfold byteAt; rw [List.getElem?_eq_getElem (by omega)]
      simp only [hb, Except.bind_ok, Cell.findChild, hL.find_none (b := pre[p.length]'(by omega)) (by simp)]
      exact ⟨_, rfl, hfin⟩
  | @node p a n pfx es st vals f g ha hL hne hh hst hown hnd htw hch ih =>
    intro fuel hpre hf
    have hrep : Rep h p a _ _ := .node ha hL hne hh hst hown hnd htw hch
    have hfin := Sought.here (pre := pre) hrep hpre (by simp)
    obtain ⟨fuel, rfl⟩ : ∃ k, fuel = k + 1 := ⟨fuel - 1, by have := hpre.length_le; omega⟩
    obtain ⟨K', hK'⟩ := hpre
    unfold seekLoop
    -- the comparison with the prefix of the node
    have hstep : ∃ stop d, seekStep h a (.inner n : Cell V) pre p.length = .ok (stop, d) ∧ (stop = false → pfx <+: K' ∧ d = p.length + pfx.length) := by
      unfold seekStep
      simp only [Cell.isLeaf, hL.not_leaf hne, Bool.not_false, true_and, Cell.partialLen, hh.len]
      by_cases h0 : pfx.length > 0
      · rw [if_pos h0]
        obtain ⟨e, he, hmin⟩ := hrep.minAt
        obtain ⟨lc, h1, h2⟩ := hrep.leaf_of e he
        obtain ⟨r, h3, h4⟩ := prefixMismatch_any (K := pre) ha hh hK'.symm ⟨e.2.2, lc, hmin, h1, by
          rw [h2.1]
          obtain ⟨x, hx⟩ := node_longer hown hch he
          exact (List.prefix_append _ _).trans hx⟩
        simp only [h3, Except.bind_ok, pure, Except.pure]
        by_cases hlt : r < pfx.length
        · rw [if_pos hlt]; exact ⟨_, _, rfl, fun h => nomatch h⟩
        · rw [if_neg hlt]; exact ⟨_, _, rfl, fun _ => ⟨h4.1 (by omega), rfl⟩⟩
      · rw [if_neg h0]
        have : pfx = [] := List.length_eq_zero_iff.1 (by omega)
        subst this
        exact ⟨_, _, rfl, fun _ => ⟨List.nil_prefix, rfl⟩⟩
    obtain ⟨stop, d, hs, hd⟩ := hstep
    simp only [rd_eq ha, Except.bind_ok, hs, pure, Except.pure]
    cases stop with
    | true => exact ⟨_, rfl, hfin⟩
    | false =>
      obtain ⟨hpx, rfl⟩ := hd rfl
      simp only [Bool.false_eq_true, if_false]
      by_cases hge : p.length + pfx.length ≥ pre.length
      · rw [if_pos hge]; exact ⟨_, rfl, hfin⟩
      · rw [if_neg hge]
        have hPp : p ++ pfx <+: pre := by rw [← hK']; exact (List.prefix_append_right_inj p).2 hpx
        obtain ⟨b, hb⟩ : ∃ b, pre[p.length + pfx.length]? = some b := ⟨_, List.getElem?_eq_getElem (by omega)⟩
        have hPb : p ++ pfx ++ [b] <+: pre := by
          obtain ⟨t, rfl⟩ := hPp
          rw [List.getElem?_append_right (by rw [List.length_append]; omega)] at hb
          cases t with
          | nil => simp at hb
          | cons c t =>
            simp only [List.length_append, Nat.sub_self, List.getElem?_cons_zero, Option.some.injEq] at hb
            subst hb
            exact ⟨t, by simp⟩
        have hbyte : byteAt pre (p.length + pfx.length) = .ok b := by unfold byteAt; rw [hb]
        simp only [hbyte, Except.bind_ok, Cell.findChild]
        rcases hL.findChild_iff b with ⟨-, hf0⟩ | ⟨l, c, r, i, hes, hf1, -⟩
        · simp only [hf0, Except.bind_ok]
          exact ⟨_, rfl, hfin⟩
        · simp only [hf1, Except.bind_ok]
          have hmem : (b, c) ∈ es := by rw [hes]; simp
          have hl' : (p ++ pfx ++ [b]).length = p.length + pfx.length + 1 := by simp only [List.length_append, List.length_cons, List.length_nil]
          obtain ⟨x, hx1, hx2⟩ := ih b c hmem fuel hPb (by rw [hl']; omega)
          rw [hl'] at hx1
          refine ⟨x, hx1, ?_⟩
          obtain ⟨q, A, E', B, N', g1, g2, g3, g4, g5, g6⟩ := hx2
          have hsort := hL.sorted
          rw [hes] at hsort
          have hside : ∀ (b' : Byte) (c' : Addr), (b', c') ∈ es → b' ≠ b → ∀ e ∈ f b', ¬ pre <+: e.1 := fun b' c' hb' hne' e he hpe =>
            hne' (prefix_edge ((hch b' c' hb').prefix e he) (hPb.trans hpe))
          have hnd' := hsort.nodup
          rw [List.map_append, List.map_cons, List.nodup_append] at hnd'
          refine ⟨q, vals ++ l.flatMap (fun e => f e.1) ++ A, E', B ++ r.flatMap (fun e => f e.1), N', g1, List.mem_cons_of_mem _ (List.mem_flatMap.2 ⟨_, hmem, g2⟩), g3, ?_, ?_, ?_⟩
          · rw [hes, List.flatMap_append, List.flatMap_cons, g4]; simp only [List.append_assoc]
          · intro e he
            rcases List.mem_append.1 he with he | he
            · rcases List.mem_append.1 he with he | he
              · intro hpe
                rcases hown.inv with ⟨-, rfl⟩ | ⟨l', lc', ho, rfl, hl', hk'⟩
                · cases he
                · cases List.mem_singleton.1 he
                  simp only [hk'] at hpe
                  have h3 := prefix_edge (hPb.trans hpe) (List.prefix_refl _)
                  exact hnd (by rw [ho]; simp) (List.mem_map.2 ⟨_, hmem, h3⟩)
              · obtain ⟨⟨b', c'⟩, hb', he⟩ := List.mem_flatMap.1 he
                refine hside b' c' (by rw [hes]; exact List.mem_append_left _ hb') (fun hbb => ?_) e he
                exact hnd'.2.2 b' (List.mem_map.2 ⟨_, hb', rfl⟩) b (by simp) hbb
            · exact g5 e he
          · intro e he
            rcases List.mem_append.1 he with he | he
            · exact g6 e he
            · obtain ⟨⟨b', c'⟩, hb', he⟩ := List.mem_flatMap.1 he
              refine hside b' c' (by rw [hes]; exact List.mem_append_right _ (List.mem_cons_of_mem _ hb')) (fun hbb => ?_) e he
              exact (List.nodup_cons.1 hnd'.2.1).1 (List.mem_map.2 ⟨_, hb', hbb⟩)

end Art
