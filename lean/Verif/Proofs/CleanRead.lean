import Verif.Proofs.Order
/-
How trees read after clean histories.
-/
set_option autoImplicit false
set_option linter.unusedVariables false
set_option linter.unusedSimpArgs false
set_option linter.unusedSectionVars false
namespace Art
variable {V : Type} [Inhabited V]

/-- How a new tree reads. -/
theorem Broad.newTree {ops : List (Op V)} (hc : Broad ops) {op : Op V} {m : Map V} (hop : op.Broad (worldAfter ops) (specAfter ops))
    (hs : (sexec (specAfter ops) op).2.trees = (specAfter ops).trees ++ [m]) :
    ∃ t, (exec (worldAfter ops) op).2.trees = (worldAfter ops).trees ++ [t] ∧ ViewOf false (exec (worldAfter ops) op).2.heap t.root t.size false m := by
  have hg := (exec_goodOf hc.good op hop (fun h => nomatch h)).2
  obtain ⟨l, hl⟩ := exec_trees (worldAfter ops) op
  have hlen := hg.1.ntrees
  have hlen0 := hc.good.1.ntrees
  rw [hl, hs] at hlen
  simp only [List.length_append, List.length_cons, List.length_nil] at hlen
  match l, hlen with
  | [t], _ =>
    refine ⟨t, hl, hg.1.trees (worldAfter ops).trees.length t m (by rw [hl]; simp) ?_⟩
    rw [hs, hlen0]; simp
  | [], h => simp at h; omega
  | _ :: _ :: _, h => simp at h; omega

theorem Clean.newTree {ops : List (Op V)} (hc : Clean ops) {op : Op V} {m : Map V} (hop : op.Clean (specAfter ops))
    (hs : (sexec (specAfter ops) op).2.trees = (specAfter ops).trees ++ [m]) :
    ∃ t, (exec (worldAfter ops) op).2.trees = (worldAfter ops).trees ++ [t] ∧ View (exec (worldAfter ops) op).2.heap t.root t.size false m := by
  have hg := (exec_good hc.good op hop).2
  obtain ⟨l, hl⟩ := exec_trees (worldAfter ops) op
  have hlen := hg.1.ntrees
  have hlen0 := hc.good.1.ntrees
  rw [hl, hs] at hlen
  simp only [List.length_append, List.length_cons, List.length_nil] at hlen
  match l, hlen with
  | [t], _ =>
    refine ⟨t, hl, hg.1.trees (worldAfter ops).trees.length t m (by rw [hl]; simp) ?_⟩
    rw [hs, hlen0]; simp
  | [], h => simp at h; omega
  | _ :: _ :: _, h => simp at h; omega

theorem ViewOf.get {ex : Bool} {h : Heap V} {t : Tree} {full : Bool} {m : Map V} (hv : ViewOf ex h t.root t.size full m) (k : Key) : treeGet h t k = .ok (m.get k) := by
  obtain ⟨hit, h1, h2, -⟩ := hv.search k
  unfold treeGet
  rw [h1, Except.bind_ok, h2]; rfl

theorem Map.get_del {m : Map V} (k k' : Key) : (m.del k).get k' = if k' = k then none else m.get k' := by
  unfold Map.get Map.del
  induction m with
  | nil => simp
  | cons e m ih =>
    by_cases he : e.1 = k
    · rw [List.filter_cons_of_neg (by simp [he]), ih]
      by_cases hk : k' = k
      · simp [hk]
      · simp [hk, List.find?_cons, he, Ne.symm hk]
    · rw [List.filter_cons_of_pos (by simp [he]), List.find?_cons, List.find?_cons]
      by_cases hk : e.1 = k'
      · subst hk; simp [he]
      · simp only [hk, decide_false, ih]

theorem Map.get_set {m : Map V} (k k' : Key) (v : V) : (m.set k v).get k' = if k' = k then some v else m.get k' := by
  have h := Map.get_del (m := m) k k'
  unfold Map.set
  unfold Map.get at h ⊢
  rw [List.find?_cons]
  by_cases hk : k' = k
  · subst hk; simp
  · simp only [Ne.symm hk, decide_false, h, if_neg hk]

theorem Broad.tree {ops : List (Op V)} (hc : Broad ops) {i : Nat} {m : Map V} (hm : mapAfter ops i = some m) : ∃ t, treeAfter ops i = some t ∧ ViewOf false (heapAfter ops) t.root t.size false m := by
  have hlt := (List.getElem?_eq_some_iff.1 hm).1
  rw [← hc.good.1.ntrees] at hlt
  exact ⟨_, List.getElem?_eq_getElem hlt, hc.view (List.getElem?_eq_getElem hlt) hm⟩

theorem Clean.tree {ops : List (Op V)} (hc : Clean ops) {i : Nat} {m : Map V} (hm : mapAfter ops i = some m) : ∃ t, treeAfter ops i = some t ∧ View (heapAfter ops) t.root t.size false m := by
  have hlt := (List.getElem?_eq_some_iff.1 hm).1
  rw [← hc.good.1.ntrees] at hlt
  exact ⟨_, List.getElem?_eq_getElem hlt, hc.view (List.getElem?_eq_getElem hlt) hm⟩

theorem Map.has_of_get {m : Map V} {k : Key} {v : V} (h : m.get k = some v) : m.has k := ⟨v, Map.mem_of_get h⟩

theorem sexec_txnGet {s : SWorld V} {x : Nat} {q : STxn V} (h : s.txns[x]? = some q) (k : Key) : (sexec s (.txnGet x k)).1 = .value (q.map.get k) := by
  simp only [sexec, h]

theorem sexec_no_panic (s : SWorld V) (op : Op V) (e : Err) : (sexec s op).1 ≠ .panic e := by
  have hov : ∀ (m : Map V) k, oldValue m k ≠ .panic e := fun m k => by unfold oldValue; split <;> nofun
  cases op <;> simp only [sexec] <;> (try split) <;> first | exact hov _ _ | nofun

theorem sexecAll_no_panic (s : SWorld V) (ops : List (Op V)) (e : Err) : .panic e ∉ (sexecAll s ops).1 := by
  induction ops generalizing s with
  | nil => nofun
  | cons op ops ih =>
    intro h
    rcases List.mem_cons.1 h with h | h
    · exact sexec_no_panic s op e h.symm
    · exact ih _ h

/-- What panics is nothing a broad history may return. -/
theorem exec_no_panic {w : World V} {s : SWorld V} (hg : GoodOf false w s) {op : Op V} (hop : op.Broad w s) (e : Err) : (exec w op).1 ≠ .panic e := by
  intro he
  rcases (exec_goodOf hg op hop (fun h => nomatch h)).1 with h | ⟨-, h⟩
  · rw [he] at h
    exact sexec_no_panic s op e h.symm
  · rw [he] at h
    cases op with
    | insert => obtain ⟨_, _, _, h⟩ := h; cases h
    | txnInsert => obtain ⟨_, _, _, h⟩ := h; cases h
    | len => obtain ⟨_, _, _, h, _⟩ := h; cases h
    | _ => exact h

theorem execAll_no_panic {w : World V} {s : SWorld V} (hg : GoodOf false w s) (ops : List (Op V)) (hc : Along Op.Broad w s ops) (e : Err) : .panic e ∉ (execAll w ops).1 := by
  induction ops generalizing w s with
  | nil => nofun
  | cons op ops ih =>
    intro h
    rcases List.mem_cons.1 h with h | h
    · exact exec_no_panic hg hc.1 e h.symm
    · exact ih (exec_goodOf hg op hc.1 (fun h => nomatch h)).2 hc.2 h

theorem Broad.no_panic {ops : List (Op V)} (hc : Broad ops) (e : Err) : .panic e ∉ (execAll World.init ops).1 := execAll_no_panic GoodOf.init ops hc e

end Art
