import Verif.Proofs.RankRead
import Verif.Proofs.CleanIter
/-
Path iterators, lower bound iterators without a bound, and reverse iterators on a well-formed tree.
-/
set_option autoImplicit false
set_option linter.unusedVariables false
set_option linter.unusedSimpArgs false
set_option linter.unusedSectionVars false
namespace Art
variable {V : Type} [Removals] {h : Heap V} {E : List (Ent V)} {N : List (Key × Addr)} {p : Key} {a : Addr} {n : Inner} {es : Edges} {st : Option Addr}

namespace Machine
variable {σ κ : Type} (m : Machine σ κ)

/-- The iteration from `s` returns `l`. -/
def Gives (s : σ) (l : List κ) : Prop := ∃ F, m.coll F s = .ok l

theorem gives_stop {s s' : σ} (hn : ∀ F, m.next (F + 1) s = .ok (none, s')) : m.Gives s [] :=
  ⟨1, by rw [m.eq, hn]; rfl⟩

theorem gives_yield {s s' : σ} {kv : κ} {l : List κ} (hn : ∀ F, m.next (F + 1) s = .ok (some kv, s')) (hs : m.Gives s' l) : m.Gives s (kv :: l) := by
  obtain ⟨F, hF⟩ := hs
  refine ⟨F + 1, ?_⟩
  rw [m.eq, hn, Except.bind_ok]
  simp only
  rw [hF]; rfl

theorem gives_skip {s s' : σ} {l : List κ} (hn : ∀ F, m.next (F + 1) s = m.next F s') (hs : m.Gives s' l) : m.Gives s l := by
  obtain ⟨F, hF⟩ := hs
  cases F with
  | zero => rw [m.zero] at hF; cases hF
  | succ F =>
    refine ⟨F + 2, ?_⟩
    rw [m.eq, hn]
    rw [m.eq] at hF
    cases hr : m.next (F + 1) s' with
    | error e => rw [hr] at hF; cases hF
    | ok q =>
      obtain ⟨r, s''⟩ := q
      rw [hr, Except.bind_ok] at hF
      rw [Except.bind_ok]
      cases r with
      | none => exact hF
      | some kv =>
        simp only at hF ⊢
        rw [m.csucc F s'' (fun h => by rw [h] at hF; cases hF)]
        exact hF

theorem Gives.ends {s : σ} {l : List κ} (hs : m.Gives s l) : Ends (fun fuel => m.coll fuel s) l := by
  obtain ⟨F, hF⟩ := hs
  exact ⟨F, fun fuel hf => by show m.coll fuel s = _; rw [fuel_le (fun n => m.csucc n s) hf (by rw [hF]; nofun), hF]⟩

end Machine

theorem pathM_next : (pathM h).next = pathNext h := rfl
theorem lbM_next : (lbM h).next = lbNext h := rfl
theorem revM_next : (revM h).next = revPrevious h := rfl

/-! ### PathIterator -/

theorem Layout.pathChildren (hL : Layout n es st) : n.pathChildren = es.map (·.2) := by
  have h1 : n.pathChildren = n.iterChildren.filterMap (fun c => c) := by
    unfold Inner.pathChildren Inner.iterChildren
    cases n.kind <;> simp only
    · rfl
    · rfl
    · rw [List.filterMap_filterMap]
      congr 1; funext q; cases q.2 <;> rfl
    · rw [List.filterMap_filterMap]
      congr 1; funext q; cases q <;> rfl
  rw [h1, hL.iterChildren, List.filterMap_map]
  induction es <;> simp_all [Function.comp_def]

/-- Does a path iterator return the entry? -/
def Ent.onPath (q : Key) (e : Ent V) : Bool := decide ((Ent.out e).1 <+: q)

theorem pathLeaf {lc : LeafC V} {l : Addr} {q : Key} (hl : h[l]? = some (.leaf lc)) (hk : ∃ k, lc.key = k ++ [dollar]) (rest : List Addr) (r : List (Key × V))
    (hg : (pathM h).Gives ⟨getTreeKey q, rest⟩ r) :
    (pathM h).Gives ⟨getTreeKey q, l :: rest⟩ (([(lc.key, lc.value, l)].filter (Ent.onPath q)).map Ent.out ++ r) := by
  obtain ⟨k, hk⟩ := hk
  have hm : prefixContainsMatch lc.key (getTreeKey q) = decide (k <+: q) := by
    unfold prefixContainsMatch
    rw [if_neg (by simp [getTreeKey, hk]), hk, getKey_snoc, show getKey (getTreeKey q) = q from getKey_snoc _ _, Bool.eq_iff_iff, hasPrefixB_iff]
    simp
  have hn : ∀ F, (pathM h).next (F + 1) ⟨getTreeKey q, l :: rest⟩ =
      if decide (k <+: q) then .ok (some (k, lc.value), ⟨getTreeKey q, rest⟩) else (pathM h).next F ⟨getTreeKey q, rest⟩ := fun F => by
    simp only [pathM_next]
    rw [pathNext]
    simp only [rd_eq hl, Except.bind_ok, hm]
    rw [hk, getKey_snoc]
    rfl
  have ho : Ent.onPath q (lc.key, lc.value, l) = decide (k <+: q) := by simp only [Ent.onPath, Ent.out, hk, getKey_snoc]
  by_cases hkq : k <+: q
  · rw [List.filter_cons, ho, if_pos (by simpa using hkq)]
    refine (pathM h).gives_yield (fun F => ?_) hg
    rw [hn F, if_pos (by simpa using hkq)]
    simp only [Ent.out, hk, getKey_snoc]
  · simp only [List.filter_cons, ho, hkq, decide_false, Bool.false_eq_true, if_false, List.filter_nil, List.map_nil, List.nil_append]
    exact (pathM h).gives_skip (fun F => by rw [hn F]; simp [hkq]) hg

theorem Rep.path (hr : Rep h p a E N) (q : Key) : ∀ (rest : List Addr) (r : List (Key × V)), (pathM h).Gives ⟨getTreeKey q, rest⟩ r →
    (pathM h).Gives ⟨getTreeKey q, a :: rest⟩ ((E.filter (Ent.onPath q)).map Ent.out ++ r) := by
  induction hr with
  | @leaf p a n l lc ha hL hpart hw hleaf hl hp hd =>
    intro rest r hg
    refine (pathM h).gives_skip (s' := ⟨getTreeKey q, l :: rest⟩) (fun F => ?_) (pathLeaf hl hd rest r hg)
    simp only [pathM_next]
    rw [pathNext]
    simp only [rd_eq ha, Except.bind_ok, hleaf, hL.pathChildren, Option.toList, List.map_nil, List.nil_append, List.cons_append, List.append_nil]
  | @node p a n pfx es st vals f g ha hL hne hh hst hown hnd htw hch ih =>
    intro rest r hg
    have hkids : ∀ ds : Edges, (∀ b c, (b, c) ∈ ds → (b, c) ∈ es) →
        (pathM h).Gives ⟨getTreeKey q, ds.map (·.2) ++ rest⟩ (((ds.flatMap fun e => f e.1).filter (Ent.onPath q)).map Ent.out ++ r) := by
      intro ds hds
      induction ds with
      | nil => simpa using hg
      | cons d ds ihd =>
        obtain ⟨b, c⟩ := d
        have := ih b c (hds b c (by simp)) _ _ (ihd fun b c hb => hds b c (by simp [hb]))
        simpa [List.flatMap_cons, List.filter_append, List.map_append, List.append_assoc] using this
    have hk := hkids es fun _ _ h => h
    have hstep : ∀ F, (pathM h).next (F + 1) ⟨getTreeKey q, a :: rest⟩ = (pathM h).next F ⟨getTreeKey q, n.leaf.toList ++ es.map (·.2) ++ rest⟩ := fun F => by
      simp only [pathM_next]
      rw [pathNext]
      simp only [rd_eq ha, Except.bind_ok, hL.pathChildren]
    refine (pathM h).gives_skip hstep ?_
    rcases hown.inv with ⟨ho, rfl⟩ | ⟨l, lc, ho, rfl, hl, hkey⟩
    · simpa [ho] using hk
    · rw [ho]
      have := pathLeaf (q := q) hl ⟨_, hkey⟩ _ _ hk
      rw [List.filter_append, List.map_append]
      simpa only [List.append_assoc, Option.toList, List.cons_append, List.nil_append] using this

/-! ### LowerBoundIterator -/

theorem Rep.lb (hr : Rep h p a E N) : ∀ (rest : List (Option Addr)) (r : List (Key × V)), (lbM h).Gives rest r →
    (lbM h).Gives (some a :: rest) (E.map Ent.out ++ r) := by
  induction hr with
  | @leaf p a n l lc ha hL hpart hw hleaf hl hp hd =>
    intro rest r hg
    refine (lbM h).gives_yield (s' := rest) (fun F => ?_) hg
    simp only [lbM_next]
    rw [lbNext]
    simp only [rd_eq ha, Except.bind_ok, hleaf, rdLeaf_eq hl, hL.iterChildren, List.map_nil, List.nil_append]
    rfl
  | @node p a n pfx es st vals f g ha hL hne hh hst hown hnd htw hch ih =>
    intro rest r hg
    have hkids : ∀ ds : Edges, (∀ b c, (b, c) ∈ ds → (b, c) ∈ es) →
        (lbM h).Gives (ds.map (fun e => some e.2) ++ rest) ((ds.flatMap fun e => f e.1).map Ent.out ++ r) := by
      intro ds hds
      induction ds with
      | nil => simpa using hg
      | cons d ds ihd =>
        obtain ⟨b, c⟩ := d
        have := ih b c (hds b c (by simp)) _ _ (ihd fun b c hb => hds b c (by simp [hb]))
        simpa [List.flatMap_cons, List.map_append, List.append_assoc] using this
    have hk := hkids es fun _ _ h => h
    rcases hown.inv with ⟨ho, rfl⟩ | ⟨l, lc, ho, rfl, hl, hkey⟩
    · refine (lbM h).gives_skip (fun F => ?_) hk
      simp only [lbM_next]
      rw [lbNext]
      simp only [rd_eq ha, Except.bind_ok, ho, hL.iterChildren]
    · refine (lbM h).gives_yield (fun F => ?_) hk
      simp only [lbM_next]
      rw [lbNext]
      simp only [rd_eq ha, Except.bind_ok, ho, rdLeaf_eq hl, hL.iterChildren]
      rfl

/-! ### ReverseIterator -/

/-- No key is a prefix of another one. -/
def PFree (E : List (Ent V)) : Prop := ∀ e ∈ E, ∀ e' ∈ E, (Ent.out e).1 <+: (Ent.out e').1 → e'.1 = e.1

theorem PFree.sub {F : List (Ent V)} (hp : PFree E) (hs : ∀ e ∈ F, e ∈ E) : PFree F := fun e he e' he' => hp e (hs e he) e' (hs e' he')

/-- The state of a reverse iterator that was not positioned. -/
def revAt (o : Option Addr) (stk : List (Option Addr)) : RevIter := { path := [], node := o, stack := some stk, expanded := [] }

theorem revPrevious_at (o : Option Addr) (stk : List (Option Addr)) (F : Nat) :
    revPrevious h F (revAt o stk) = (revNext h [] [] F stk >>= fun q => .ok (q.1, revAt o q.2)) := rfl

theorem revLeaf {o : Option Addr} {lc : LeafC V} {l : Addr} (hl : h[l]? = some (.leaf lc)) (hk : getKey lc.key ≠ []) (rest : List (Option Addr)) (r : List (Key × V))
    (hg : (revM h).Gives (revAt o rest) r) : (revM h).Gives (revAt o (some l :: rest)) r := by
  refine (revM h).gives_skip (fun F => ?_) hg
  simp only [revM_next]
  rw [revPrevious_at, revPrevious_at, revNext]
  have : leBytes (getKey lc.key) (getKey []) = false := by
    rw [show getKey [] = [] from rfl]
    cases hh : getKey lc.key with
    | nil => exact absurd hh hk
    | cons x t => rfl
  simp only [rd_eq hl, Except.bind_ok, this, Bool.false_eq_true, if_false]

theorem revOwn {o : Option Addr} {lc : LeafC V} {l : Addr} (ha : h[a]? = some (.inner n)) (ho : n.leaf = some l) (hl : h[l]? = some (.leaf lc))
    (rest : List (Option Addr)) (F : Nat) : (revM h).next (F + 1) (revAt o (some a :: rest)) =
      .ok (some (Ent.out (lc.key, lc.value, l)), revAt o (n.revChildren ++ some l :: rest)) := by
  simp only [revM_next]
  rw [revPrevious_at, revNext]
  simp only [rd_eq ha, Except.bind_ok, ho, leafOf, rdLeaf_eq hl, pure, Except.pure, List.contains_nil, Bool.false_eq_true, if_false]
  have h1 : hasPrefix (getKey lc.key) [] = true := rfl
  have h2 : revLeafPush [] (some (l, lc)) rest = some l :: rest := by simp [revLeafPush]
  rw [h1, h2]; rfl

theorem Rep.rev (hr : Rep h p a E N) (o : Option Addr) : (∀ e ∈ E, getKey e.1 ≠ []) → ∀ (rest : List (Option Addr)) (r : List (Key × V)), (revM h).Gives (revAt o rest) r →
    ∃ L, L.Perm E ∧ (PFree E → L = E.reverse) ∧ (revM h).Gives (revAt o (some a :: rest)) (L.map Ent.out ++ r) := by
  induction hr with
  | @leaf p a n l lc ha hL hpart hw hleaf hl hp hd =>
    intro hne rest r hg
    refine ⟨[(lc.key, lc.value, l)], .refl _, fun _ => rfl, (revM h).gives_yield (revOwn ha hleaf hl rest) ?_⟩
    simp only [Inner.revChildren, hL.iterChildren, List.map_nil, List.reverse_nil, List.nil_append]
    exact revLeaf hl (hne (lc.key, lc.value, l) (by simp)) _ _ hg
  | @node p a n pfx es st vals f g ha hL hne hh hst hown hnd htw hch ih =>
    intro hnk rest r hg
    have hsub : ∀ b c, (b, c) ∈ es → ∀ e ∈ f b, e ∈ vals ++ es.flatMap fun e => f e.1 := fun b c hb e he =>
      List.mem_append_right _ (List.mem_flatMap.2 ⟨_, hb, he⟩)
    have hkids : ∀ ds : Edges, (∀ b c, (b, c) ∈ ds → (b, c) ∈ es) → ∀ rest (r : List (Key × V)), (revM h).Gives (revAt o rest) r →
        ∃ L, L.Perm (ds.flatMap fun e => f e.1) ∧ (PFree (vals ++ es.flatMap fun e => f e.1) → L = ds.flatMap fun e => (f e.1).reverse) ∧
          (revM h).Gives (revAt o (ds.map (fun e => some e.2) ++ rest)) (L.map Ent.out ++ r) := by
      intro ds hds rest r hg
      induction ds with
      | nil => exact ⟨[], .refl _, fun _ => rfl, by simpa using hg⟩
      | cons d ds ihd =>
        obtain ⟨b, c⟩ := d
        obtain ⟨L1, h1, h2, h3⟩ := ihd fun b c hb => hds b c (by simp [hb])
        have hb := hds b c (by simp)
        obtain ⟨L2, h4, h5, h6⟩ := ih b c hb (fun e he => hnk e (hsub b c hb e he)) _ _ h3
        refine ⟨L2 ++ L1, ?_, fun hp => ?_, ?_⟩
        · rw [List.flatMap_cons]; exact h4.append h1
        · rw [List.flatMap_cons, h2 hp, h5 (hp.sub (hsub b c hb))]
        · simpa [List.map_append, List.append_assoc] using h6
    have hrc : n.revChildren = es.reverse.map fun e => some e.2 := by rw [Inner.revChildren, hL.iterChildren, List.map_reverse]
    have hperm : (es.reverse.flatMap fun e => f e.1).Perm (es.flatMap fun e => f e.1) := (List.reverse_perm es).flatMap_right _
    rcases hown.inv with ⟨ho, rfl⟩ | ⟨l, lc, ho, rfl, hl, hkey⟩
    · obtain ⟨L, h1, h2, h3⟩ := hkids es.reverse (fun b c hb => by simpa using hb) rest r hg
      refine ⟨L, h1.trans hperm, fun hp => ?_, ?_⟩
      · rw [h2 hp, List.nil_append, List.reverse_flatMap]; rfl
      · refine (revM h).gives_skip (fun F => ?_) h3
        simp only [revM_next]
        rw [revPrevious_at, revPrevious_at, revNext]
        simp only [rd_eq ha, Except.bind_ok, ho, leafOf, pure, Except.pure, hrc]
        rfl
    · obtain ⟨L, h1, h2, h3⟩ := hkids es.reverse (fun b c hb => by simpa using hb) (some l :: rest) r (revLeaf hl (hnk (lc.key, lc.value, l) (by simp)) rest r hg)
      refine ⟨(lc.key, lc.value, l) :: L, (h1.trans hperm).cons _, fun hp => ?_, ?_⟩
      · exfalso
        obtain ⟨⟨b, c⟩, es', rfl⟩ := List.exists_cons_of_ne_nil hne.ne
        obtain ⟨e, E', he, -⟩ := (hch b c (by simp)).minimum
        have hpre := (hch b c (by simp)).prefix e (by rw [he]; simp)
        obtain ⟨k, hk⟩ := (hch b c (by simp)).dollar e (by rw [he]; simp)
        have hin := hsub b c (by simp) e (by rw [he]; simp)
        have h0 := hp (lc.key, lc.value, l) (by simp) e hin (by
          simp only [Ent.out, hkey, hk, getKey_snoc]
          rw [hk] at hpre
          rcases prefix_dollar.1 hpre with h | h
          · exact (List.prefix_append _ _).trans h
          · rw [(snoc2 h).1]; exact List.prefix_refl _)
        rw [h0] at hpre
        simp only [hkey] at hpre
        have := prefix_edge hpre (List.prefix_refl _)
        exact hnd (by rw [ho]; simp) (by rw [← this]; simp)
      · rw [List.map_cons, List.cons_append]
        refine (revM h).gives_yield (revOwn ha ho hl rest) ?_
        rw [hrc]
        exact h3

end Art
