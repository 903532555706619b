import Verif.Proofs.CleanRead
import Verif.Props.Statements
/-
How trees iterate after clean histories.
-/
set_option autoImplicit false
set_option linter.unusedVariables false
set_option linter.unusedSimpArgs false
set_option linter.unusedSectionVars false
namespace Art
variable {V : Type} [Inhabited V] {h : Heap V} {t : Tree} {m : Map V} {full : Bool}

/-- `SeekPrefix` and iteration. -/
theorem ViewOf.iter {ex : Bool} (hv : ViewOf ex h t.root t.size full m) (pre : Key) (hne : m ≠ [] ∨ pre ≠ []) (hpre : ∀ k, m.has k → pre ≠ k ++ [dollar]) :
    ∃ l, Ends (iterPrefix h t pre) l ∧ l.Perm (m.filter fun e => pre <+: e.1) ∧ (m.Ordered → l.Pairwise fun a b => Key.lt a.1 b.1) := by
  by_cases hm : m = []
  · have hp := hne.resolve_left (fun h => h hm)
    obtain ⟨⟨E, N, hr, ha⟩, -, -, -⟩ := hv
    cases hr with
    | tree hr =>
        exfalso
        obtain ⟨e, E', rfl, -⟩ := hr.minimum
        obtain ⟨k, hk⟩ := hr.dollar e (by simp)
        have := ha.mem (e := e) (by simp) hk
        rw [hm] at this; cases this
    | empty hph =>
      refine ⟨[], ⟨2, fun fuel hf => ?_⟩, by simp [hm], fun _ => .nil⟩
      obtain ⟨it, h1, h2⟩ := hph.collect hp (fuel - 2)
      unfold iterPrefix
      rw [h1, Except.bind_ok]
      rwa [show fuel - 2 + 2 = fuel by omega] at h2
  · obtain ⟨E, N, hr, ha⟩ := hv.entries hm
    obtain ⟨it, x, h1, -, h2⟩ := hr.collect (pre := pre)
    refine ⟨(E.filter (Ent.sel pre)).map Ent.out, ⟨h.length + 1, fun fuel hf => ?_⟩, ?_, fun ho => ?_⟩
    · unfold iterPrefix
      rw [h1, Except.bind_ok]
      exact h2 fuel (by omega)
    · rw [filter_map_sel hr ha hpre]
      exact (ha.perm hr hv.nodup).filter _
    · exact (ha.sorted hr ho).sublist ((List.filter_sublist).map _)

theorem leafPair_ok {l : Addr} {lc : LeafC V} (hl : h[l]? = some (.leaf lc)) : leafPair h (some l) = .ok (some (lc.key, lc.value)) := by
  unfold leafPair
  simp only [rdLeaf_eq hl, Except.bind_ok]
  rfl

theorem key_lt_asymm {a b : Key} (h1 : Key.lt a b) (h2 : Key.lt b a) : False := key_lt_irrefl _ (key_lt_trans h1 h2)

theorem ViewOf.minimum {ex : Bool} (hv : ViewOf ex h t.root t.size full m) (ho : m.Ordered) {k : Key} {v : V} (hk : m.IsMin k v) :
    treeMinimum h t = .ok (some (k ++ [dollar], v)) := by
  have hmem := Map.mem_of_get hk.1
  obtain ⟨E, N, hr, ha⟩ := hv.entries (fun h0 => by rw [h0] at hmem; cases hmem)
  obtain ⟨e, E', hE, h1⟩ := hr.minimum
  obtain ⟨lc, h2, h3, h4⟩ := hr.leaf_of e (by rw [hE]; simp)
  obtain ⟨k', hk'⟩ := hr.dollar e (by rw [hE]; simp)
  have hm' := ha.mem (e := e) (by rw [hE]; simp) hk'
  have hs := ha.sorted hr ho
  have hkk : k' = k := by
    rcases Decidable.em (k' = k) with h | h
    · exact h
    · have hlt := hk.2 k' e.2.1 (Map.get_some hv.nodup hm') h
      obtain ⟨x, hx⟩ := (ha k v).1 hmem
      rw [hE] at hs hx
      rw [List.map_cons, List.pairwise_cons] at hs
      rcases List.mem_cons.1 hx with hx | hx
      · rw [← hx] at hk'; exact absurd (snoc2 hk').1.symm h
      · have := hs.1 _ (List.mem_map.2 ⟨_, hx, rfl⟩)
        simp only [Ent.out, hk', getKey_snoc] at this
        exact (key_lt_asymm this hlt).elim
  subst hkk
  unfold treeMinimum
  rw [h1, Except.bind_ok, leafPair_ok h2, h3, h4, hk']
  have := Map.get_some hv.nodup hm'
  rw [hk.1] at this
  cases this; rfl

theorem ViewOf.maximum {ex : Bool} (hv : ViewOf ex h t.root t.size full m) (ho : m.Ordered) {k : Key} {v : V} (hk : m.IsMax k v) :
    treeMaximum h t = .ok (some (k ++ [dollar], v)) := by
  have hmem := Map.mem_of_get hk.1
  obtain ⟨E, N, hr, ha⟩ := hv.entries (fun h0 => by rw [h0] at hmem; cases hmem)
  obtain ⟨e, E', hE, h1⟩ := hr.maximum
  obtain ⟨lc, h2, h3, h4⟩ := hr.leaf_of e (by rw [hE]; simp)
  obtain ⟨k', hk'⟩ := hr.dollar e (by rw [hE]; simp)
  have hm' := ha.mem (e := e) (by rw [hE]; simp) hk'
  have hs := ha.sorted hr ho
  have hkk : k' = k := by
    rcases Decidable.em (k' = k) with h | h
    · exact h
    · have hlt := hk.2 k' e.2.1 (Map.get_some hv.nodup hm') h
      obtain ⟨x, hx⟩ := (ha k v).1 hmem
      rw [hE] at hs hx
      rw [List.map_append, List.pairwise_append] at hs
      rcases List.mem_append.1 hx with hx | hx
      · have := hs.2.2 _ (List.mem_map.2 ⟨_, hx, rfl⟩) (Ent.out e) (by simp)
        simp only [Ent.out, hk', getKey_snoc] at this
        exact (key_lt_asymm this hlt).elim
      · rw [← List.mem_singleton.1 hx] at hk'; exact absurd (snoc2 hk').1.symm h
  subst hkk
  unfold treeMaximum
  rw [h1, Except.bind_ok, leafPair_ok h2, h3, h4, hk']
  have := Map.get_some hv.nodup hm'
  rw [hk.1] at this
  cases this; rfl

end Art
