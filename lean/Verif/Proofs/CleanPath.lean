import Verif.Proofs.Gives
/-
Path iterators, lower bound iterators and reverse iterators after clean histories.
-/
set_option autoImplicit false
set_option linter.unusedVariables false
set_option linter.unusedSimpArgs false
set_option linter.unusedSectionVars false
namespace Art
variable {V : Type} [Inhabited V] {h : Heap V} {t : Tree} {m : Map V} {full : Bool} {E : List (Ent V)} {N : List (Key × Addr)} {p : Key} {a : Addr}

theorem key_lt_length {k k' q : Key} (h1 : k <+: q) (h2 : k' <+: q) (hlt : Key.lt k k') : k.length < k'.length := by
  refine Nat.lt_of_not_le fun hle => ?_
  obtain ⟨t, rfl⟩ := List.prefix_of_prefix_length_le h2 h1 hle
  cases t with
  | nil => rw [List.append_nil] at hlt; exact key_lt_irrefl _ hlt
  | cons b t => exact key_lt_asymm hlt key_lt_append

theorem ViewOf.path {ex : Bool} (hv : ViewOf ex h t.root t.size full m) (q : Key) :
    ∃ l, Ends (fun fuel => pathCollect h fuel (getPathIterator t q)) l ∧ l.Perm (m.filter fun e => e.1 <+: q) ∧
      (m.Ordered → l.Pairwise fun a b => a.1.length < b.1.length) := by
  have hnil : (pathM h).Gives ⟨getTreeKey q, []⟩ [] := (pathM h).gives_stop (s' := ⟨getTreeKey q, []⟩) fun F => by
    rw [pathM_next, pathNext]
  by_cases hm : m = []
  · refine ⟨[], Machine.Gives.ends (pathM h) ?_, by simp [hm], fun _ => .nil⟩
    obtain ⟨⟨E, N, hr, ha⟩, -, -, -⟩ := hv
    cases hr with
    | tree hr =>
      exfalso
      obtain ⟨e, E', rfl, -⟩ := hr.minimum
      obtain ⟨k, hk⟩ := hr.dollar e (by simp)
      have := ha.mem (e := e) (by simp) hk
      rw [hm] at this; cases this
    | empty hph =>
      obtain ⟨n, l, lc, h1, h2, h3, h4, h5, h6, h7⟩ := hph
      refine (pathM h).gives_skip (s' := ⟨getTreeKey q, [l]⟩) (fun F => ?_) ((pathM h).gives_skip (fun F => ?_) hnil)
      · unfold getPathIterator
        rw [pathM_next, pathNext]
        simp only [rd_eq h1, Except.bind_ok, h3, h2.pathChildren, Option.toList, List.map_nil, List.append_nil]
      · rw [pathM_next, pathNext]
        have : prefixContainsMatch lc.key (getTreeKey q) = false := by unfold prefixContainsMatch; rw [if_pos (by simp [h5])]
        simp only [rd_eq h4, Except.bind_ok, this, Bool.false_eq_true, if_false]
  · obtain ⟨E, N, hr, ha⟩ := hv.entries hm
    have h1 := hr.path q [] [] hnil
    rw [List.append_nil] at h1
    have h2 : (E.filter (Ent.onPath q)).map Ent.out = (E.map Ent.out).filter fun e => decide (e.1 <+: q) := by
      rw [List.filter_map]; rfl
    refine ⟨_, Machine.Gives.ends (pathM h) h1, ?_, fun ho => ?_⟩
    · rw [h2]
      exact (ha.perm hr hv.nodup).filter _
    · rw [h2]
      refine ((ha.sorted hr ho).sublist List.filter_sublist).imp_of_mem fun {x y} hx hy hlt => ?_
      exact key_lt_length (by simpa using (List.mem_filter.1 hx).2) (by simpa using (List.mem_filter.1 hy).2) hlt

theorem ViewOf.lbAll {ex : Bool} (hv : ViewOf ex h t.root t.size full m) (hne : m ≠ []) :
    ∃ l, Ends (iterLowerBound h t []) l ∧ l.Perm m ∧ (m.Ordered → l.Pairwise fun a b => Key.lt a.1 b.1) := by
  obtain ⟨E, N, hr, ha⟩ := hv.entries hne
  have h1 := hr.lb [] [] ((lbM h).gives_stop (s' := []) fun F => by rw [lbM_next, lbNext])
  rw [List.append_nil] at h1
  exact ⟨_, Machine.Gives.ends (lbM h) h1, ha.perm hr hv.nodup, ha.sorted hr⟩

theorem Abs.pfree [Removals] (hr : Rep h p a E N) (ha : Abs E m) (hp : m.PrefixFree) : PFree E := by
  intro e he e' he' hpre
  obtain ⟨k, hk⟩ := hr.dollar e he
  obtain ⟨k', hk'⟩ := hr.dollar e' he'
  simp only [Ent.out, hk, hk', getKey_snoc] at hpre
  rw [hk, hk', hp k k' ⟨_, ha.mem he hk⟩ ⟨_, ha.mem he' hk'⟩ hpre]

theorem Map.PrefixFree.ordered (hp : m.PrefixFree) : m.Ordered := by
  intro k k' b hk hk' hb
  have := hp k k' hk hk' ((List.prefix_append _ _).trans hb)
  subst this
  exact absurd hb.length_le (by simp)

theorem revCollect_mk (F : Nat) (a : Addr) : revCollect h F (mkRevIter a) = revCollect h F (revAt (some a) [some a]) := by
  cases F with
  | zero => rfl
  | succ F => rw [revCollect, revCollect]; rfl

theorem ViewOf.rev {ex : Bool} (hv : ViewOf ex h t.root t.size full m) (hne : m ≠ []) (h0 : ¬ m.has []) :
    ∃ l, Ends (fun fuel => revCollect h fuel (mkRevIter t.root)) l ∧ l.Perm m ∧ (m.PrefixFree → l.Pairwise fun a b => Key.lt b.1 a.1) := by
  obtain ⟨E, N, hr, ha⟩ := hv.entries hne
  obtain ⟨L, h1, h2, h3⟩ := hr.rev (some t.root) (fun e he hk => by
    obtain ⟨k, hk'⟩ := hr.dollar e he
    rw [hk', getKey_snoc] at hk
    subst hk
    exact h0 ⟨_, ha.mem he hk'⟩) [] [] ((revM h).gives_stop (s' := revAt (some t.root) []) fun F => by rw [revM_next, revPrevious_at, revNext]; rfl)
  rw [List.append_nil] at h3
  refine ⟨_, ?_, (h1.map _).trans (ha.perm hr hv.nodup), fun hp => ?_⟩
  · have := Machine.Gives.ends (revM h) h3
    simp only [revCollect_mk]
    exact this
  · rw [h2 (ha.pfree hr hp), List.map_reverse, List.pairwise_reverse]
    exact ha.sorted hr hp.ordered

end Art
