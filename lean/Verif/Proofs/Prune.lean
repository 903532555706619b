import Verif.Proofs.Pruned
/-
`deletePrefix` on a well-formed subtree without stale slots.
-/
set_option autoImplicit false
set_option linter.unusedVariables false
set_option linter.unusedSimpArgs false
set_option linter.unusedSectionVars false
namespace Art
variable {V : Type} {s s' s'' : St V} {h h' : Heap V} {E E' : List (Ent V)} {N : List (Key × Addr)} {p P K pre : Key} {a c : Addr} {n n' : Inner} {es : Edges}
  {st : Option Addr} {Z : Nat} {X S S' : Addr → Prop} {o : Option Addr} {f : Byte → List (Ent V)} {g : Byte → List (Key × Addr)} {vals : List (Ent V)} {pfx : Key}

/-! ### The entries with the prefix -/

/-- The key of the entry starts with the prefix. -/
def Ent.hit (pre : Key) (e : Ent V) : Bool := hasPrefixB (getKey e.1) pre

/-- All entries have the prefix. -/
def AllHit (pre : Key) (E : List (Ent V)) : Prop := ∀ e ∈ E, Ent.hit pre e = true

/-- No entry is the only one with the prefix. -/
def Two (pre : Key) (E : List (Ent V)) : Prop := ∀ e ∈ E, Ent.hit pre e = true → ∃ e' ∈ E, Ent.hit pre e' = true ∧ e'.1 ≠ e.1

/-- No key with the prefix is a proper prefix of another key. -/
def HFree (pre : Key) (E : List (Ent V)) : Prop := ∀ e ∈ E, ∀ e' ∈ E, Ent.hit pre e = true → getKey e.1 <+: getKey e'.1 → e'.1 = e.1

theorem Ent.hit_iff {e : Ent V} : Ent.hit pre e = true ↔ pre <+: getKey e.1 := hasPrefixB_iff _ _

theorem Ent.hit_prefix {e : Ent V} (h : Ent.hit pre e = true) : pre <+: e.1 := (Ent.hit_iff.1 h).trans <| by
  unfold getKey
  split
  · exact List.prefix_refl _
  · exact List.take_prefix _ _

theorem HFree.sub (h : HFree pre E) (hs : ∀ e ∈ E', e ∈ E) : HFree pre E' := fun e he e' he' => h e (hs e he) e' (hs e' he')

theorem AllHit.not_two {e : Ent V} (h : AllHit pre [e]) (h2 : Two pre [e]) : False := by
  obtain ⟨e', he', -, hne⟩ := h2 e (by simp) (h e (by simp))
  rw [List.mem_singleton.1 he'] at hne
  exact hne rfl

theorem AllHit.filter (h : AllHit pre E) : E.filter (fun e => !Ent.hit pre e) = [] := by
  rw [List.filter_eq_nil_iff]
  exact fun e he => by rw [h e he]; simp

theorem getKey_longer {k : Key} {x : Byte} (h : P ++ [x] <+: k) : P <+: getKey k := by
  obtain ⟨t, rfl⟩ := h
  unfold getKey
  rw [List.append_assoc, if_neg (by simp), List.take_append]
  refine List.IsPrefix.trans ?_ (List.prefix_append _ _)
  rw [List.take_of_length_le (by simp)]
  exact List.prefix_refl _

/-! ### The results of a call -/

/-- What is left of a subtree with the entries `E`. -/
def Outcome (pre : Key) (h : Heap V) (S : Addr → Prop) (p : Key) (E : List (Ent V)) (o : Option Addr) : Prop :=
  (o = none ∧ AllHit pre E ∧ ∃ e, E = [e]) ∨ (∃ a', o = some a' ∧ AllHit pre E ∧ Dead h S a') ∨
  ∃ a', o = some a' ∧ ¬ AllHit pre E ∧ Cut h S p a' (E.filter fun e => !Ent.hit pre e)

theorem Outcome.frame (hd : Outcome pre h S p E o) (hX : ∀ x, S x → x < h.length → Eqv h h' x) (hl : ∀ x lc, h[x]? = some (.leaf lc) → Eqv h h' x)
    (hS : ∀ x, S x → S' x) : Outcome pre h' S' p E o := by
  rcases hd with hd | ⟨a', h1, h2, h3⟩ | ⟨a', h1, h2, h3⟩
  · exact Or.inl hd
  · exact Or.inr (Or.inl ⟨a', h1, h2, h3.frame hX hS⟩)
  · exact Or.inr (Or.inr ⟨a', h1, h2, h3.frame hX hl hS⟩)

/-- The nodes have no stale slots. -/
def TidyN (h : Heap V) (N : List (Key × Addr)) : Prop := ∀ x ∈ N.map (·.2), ∀ n, h[x]? = some (.inner n) → n.Tidy

/-- None of the nodes with children is a `Node256`. -/
def SmallN (h : Heap V) (N : List (Key × Addr)) : Prop := ∀ x ∈ N.map (·.2), ∀ n, h[x]? = some (.inner n) → n.isLeaf = false → n.Small

theorem TidyN.step (ht : TidyN s.heap N) (hr : Rep s.heap p a E N) (hs : Stp Z X s s') (hX : ∀ x, x ∈ N.map (·.2) → ¬ X x) : TidyN s'.heap N := fun x hx n hn => by
  obtain ⟨⟨q, y⟩, hy, rfl⟩ := List.mem_map.1 hx
  obtain ⟨m, hm⟩ := hr.inner_of q y hy
  obtain ⟨i, k, hm'⟩ := (hs.frame y (lt_of_get hm) (hX _ hx)).inner hm
  rw [hm'] at hn; cases hn
  exact (ht _ hx m hm).of rfl rfl rfl

theorem SmallN.step (ht : SmallN s.heap N) (hr : Rep s.heap p a E N) (hs : Stp Z X s s') (hX : ∀ x, x ∈ N.map (·.2) → ¬ X x) : SmallN s'.heap N := fun x hx n hn hl => by
  obtain ⟨⟨q, y⟩, hy, rfl⟩ := List.mem_map.1 hx
  obtain ⟨m, hm⟩ := hr.inner_of q y hy
  obtain ⟨i, k, hm'⟩ := (hs.frame y (lt_of_get hm) (hX _ hx)).inner hm
  rw [hm'] at hn; cases hn
  exact ht _ hx m hm hl

/-- The result of `deletePrefix` on a subtree. -/
structure DPost (pre : Key) (p : Key) (E : List (Ent V)) (N : List (Key × Addr)) (s : St V) (r : Option Addr × Nat) (s' : St V) : Prop where
  stp : Stp s.heap.length (fun x => x ∈ N.map (·.2)) s s'
  cnt : r.2 = (E.filter (Ent.hit pre)).length
  lt : ∀ a', r.1 = some a' → a' < s'.heap.length
  out : SmallN s.heap N → HFree pre E → AllHit pre E ∨ Two pre E → Outcome pre s'.heap (fun x => x ∈ N.map (·.2) ∨ s.heap.length ≤ x) p E r.1

/-! ### The children -/

/-- Leaves stay as they are when only inner nodes of a subtree change. -/
theorem leaf_eqv (hs : Stp Z X s s') (hX : ∀ x, X x → ∃ n, s.heap[x]? = some (.inner n)) : ∀ x (lc : LeafC V), s.heap[x]? = some (.leaf lc) → Eqv s.heap s'.heap x := fun x lc hx => by
  refine hs.frame x (lt_of_get hx) fun h => ?_
  obtain ⟨n, hn⟩ := hX x h
  rw [hn] at hx; cases hx

/-- What the loop over the children gives. -/
structure KidsPost (pre P : Key) (f : Byte → List (Ent V)) (g : Byte → List (Key × Addr)) (ds : Edges) (xs : List (Option Addr × Nat)) (s : St V)
    (r : List (Nat × Option Addr) × Nat) (s' : St V) : Prop where
  stp : Stp s.heap.length (fun x => ∃ d ∈ ds, x ∈ (g d.1).map (·.2)) s s'
  cnt : r.2 = ((ds.flatMap fun d => f d.1).filter (Ent.hit pre)).length
  out : ∃ o : Addr → Option Addr, r.1 = xs.filterMap (fun x => x.1.map fun c => (x.2, o c)) ∧
    ∀ d ∈ ds, SmallN s.heap (g d.1) → HFree pre (f d.1) → AllHit pre (f d.1) ∨ Two pre (f d.1) →
      Outcome pre s'.heap (fun x => x ∈ (g d.1).map (·.2) ∨ s.heap.length ≤ x) (P ++ [d.1]) (f d.1) (o d.2)

theorem deletePrefixChildren_runs {rec : Addr → M V (Option Addr × Nat)} : ∀ (xs : List (Option Addr × Nat)) (ds : Edges) (s : St V),
    xs.filterMap (·.1) = ds.map (·.2) → (ds.map (·.1)).Nodup → (∀ d ∈ ds, Rep s.heap (P ++ [d.1]) d.2 (f d.1) (g d.1)) → (∀ d ∈ ds, TidyN s.heap (g d.1)) →
    (∀ d ∈ ds, ∀ t : St V, Rep t.heap (P ++ [d.1]) d.2 (f d.1) (g d.1) → TidyN t.heap (g d.1) → Runs (rec d.2) t (DPost pre (P ++ [d.1]) (f d.1) (g d.1) t)) →
    Runs (deletePrefixChildren rec xs : M V (List (Nat × Option Addr) × Nat)) s (KidsPost pre P f g ds xs s) := by
  intro xs
  induction xs with
  | nil =>
    intro ds s hds hnd hch htd hrec
    have : ds = [] := List.map_eq_nil_iff.1 hds.symm
    subst this
    exact Runs.pure ⟨Stp.refl, rfl, fun _ => none, rfl, fun d hd => nomatch hd⟩
  | cons x xs ih =>
    intro ds s hds hnd hch htd hrec
    obtain ⟨x, i⟩ := x
    cases x with
    | none =>
      unfold deletePrefixChildren
      refine Runs.mono (ih ds s (by simpa using hds) hnd hch htd hrec) fun r s' ⟨h1, h2, o, h3, h4⟩ => ⟨h1, h2, o, by simpa using h3, h4⟩
    | some c =>
      cases ds with
      | nil => simp at hds
      | cons d ds =>
        obtain ⟨b, c'⟩ := d
        simp only [List.filterMap_cons, List.map_cons, List.cons.injEq] at hds
        obtain ⟨rfl, hds⟩ := hds
        rw [List.map_cons, List.nodup_cons] at hnd
        have hr0 := hch _ (List.mem_cons_self ..)
        have hdisj : ∀ d ∈ ds, b ≠ d.1 := fun d hd hb => hnd.1 (List.mem_map.2 ⟨d, hd, hb.symm⟩)
        have hchd : ∀ d ∈ ds, Rep s.heap (P ++ [d.1]) d.2 (f d.1) (g d.1) := fun d hd => hch d (List.mem_cons_of_mem _ hd)
        unfold deletePrefixChildren
        refine Runs.bind (Runs.mono (hrec _ (List.mem_cons_self ..) s hr0 (htd _ (List.mem_cons_self ..))) ?_)
        rintro ⟨nc, del⟩ s1 ⟨h1, h2, h3, h4⟩
        simp only at h2 h3 h4 ⊢
        have hc : c < s.heap.length := hr0.bound hr0.occ
        refine Runs.bind (Runs.mono (trackChannel_runs (N := s.heap.length) (o := if del > 0 then some c else none) fun x hx => ?_) ?_)
        · split at hx
          · cases hx
            exact Nat.lt_of_lt_of_le hc h1.len
          · cases hx
        rintro _ s2 ⟨k1, k2, -⟩
        have h5 := h1.then0 k1
        have hkeep : ∀ d ∈ ds, ∀ x, Occ (f d.1) (g d.1) x → ¬ x ∈ (g b).map (·.2) := fun d hd x hx hxb =>
          Rep.disjoint hr0 (hchd d hd) (hdisj d hd) (Or.inl hxb) hx
        have hch2 : ∀ d ∈ ds, Rep s2.heap (P ++ [d.1]) d.2 (f d.1) (g d.1) := fun d hd => (hchd d hd).step h5 (hkeep d hd)
        have htd2 : ∀ d ∈ ds, TidyN s2.heap (g d.1) := fun d hd =>
          (htd d (List.mem_cons_of_mem _ hd)).step (hchd d hd) h5 fun x hx => hkeep d hd x (Or.inl hx)
        refine Runs.bind (Runs.mono (ih ds s2 hds hnd.2 hch2 htd2 fun d hd => hrec d (List.mem_cons_of_mem _ hd)) ?_)
        rintro ⟨m, total⟩ s3 ⟨g1, g2, o, g3, g4⟩
        simp only at g2 g3 ⊢
        refine Runs.pure ⟨?_, ?_, fun x => if x = c then nc else o x, ?_, ?_⟩
        · refine (Stp.mono (Y := fun x => ∃ d ∈ (b, c) :: ds, x ∈ (g d.1).map (·.2)) h5 (Nat.le_refl _) fun x _ hx => ⟨_, List.mem_cons_self .., hx⟩).trans (g1.mono (Y := fun x => ∃ d ∈ ds, x ∈ (g d.1).map (·.2)) h5.len fun _ _ h => h) ?_
          rintro x - ⟨d, hd, hx⟩
          exact ⟨d, List.mem_cons_of_mem _ hd, hx⟩
        · simp only [List.flatMap_cons, List.filter_append, List.length_append]
          rw [g2, h2]
        · simp only [List.filterMap_cons, Option.map_some, if_true]
          rw [g3]
          congr 1
          refine filterMap_congr' fun x hx => ?_
          cases hx1 : x.1 with
          | none => rfl
          | some y =>
            have hy : y ∈ ds.map (·.2) := by
              rw [← hds]
              exact List.mem_filterMap.2 ⟨x, hx, hx1⟩
            obtain ⟨d, hd, rfl⟩ := List.mem_map.1 hy
            have hne : d.2 ≠ c := fun h => by
              have := (hchd d hd).occ
              rw [h] at this
              exact Rep.disjoint hr0 (hchd d hd) (hdisj d hd) hr0.occ this
            simp only [Option.map_some, if_neg hne]
        · intro d hd hsm hfr htw
          rcases List.mem_cons.1 hd with rfl | hd
          · simp only [if_true] at hsm hfr htw ⊢
            refine (h4 hsm hfr htw).frame (fun x hx hlt => ?_) (fun x lc hx => ?_) (fun x hx => hx)
            · refine (k1.eqv hlt).trans (g1.frame x (by rw [k2]; exact hlt) ?_)
              rintro ⟨d, hd, hxd⟩
              rcases hx with hx | hx
              · exact hkeep d hd x (Or.inl hxd) hx
              · have := (hchd d hd).bound (Or.inl hxd)
                omega
            · obtain ⟨i, k, hx2⟩ := (k1.eqv (lt_of_get hx)).leaf hx
              refine (k1.eqv (lt_of_get hx)).trans (g1.frame x (lt_of_get hx2) ?_)
              rintro ⟨d, hd, hxd⟩
              obtain ⟨⟨q, y⟩, hy, rfl⟩ := List.mem_map.1 hxd
              obtain ⟨n, hn⟩ := (hch2 d hd).inner_of q y hy
              rw [hn] at hx2; cases hx2
          · have hne : d.2 ≠ c := fun h => by
              have := (hchd d hd).occ
              rw [h] at this
              exact Rep.disjoint hr0 (hchd d hd) (hdisj d hd) hr0.occ this
            simp only [if_neg hne]
            refine (g4 d hd (hsm.step (hchd d hd) h5 fun x hx => hkeep d hd x (Or.inl hx)) hfr htw).frame (fun x _ _ => rfl) (fun _ _ _ => rfl) fun x hx => ?_
            exact hx.imp id fun h => Nat.le_trans h5.len h

/-! ### Nodes -/

theorem lookup_slots (o : Addr → Option Addr) : ∀ (cs : List Addr) (tl : List (Option Addr)) (k i : Nat), i < cs.length →
    (((cs.map some ++ tl).zipIdx k).filterMap fun x => x.1.map fun c => (x.2, o c)).lookup (k + i) = (cs.map o)[i]? := by
  intro cs
  induction cs with
  | nil => intro tl k i hi; cases hi
  | cons c cs ih =>
    intro tl k i hi
    rw [List.map_cons, List.cons_append, List.zipIdx_cons, List.filterMap_cons]
    simp only [Option.map_some, List.lookup_cons]
    cases i with
    | zero => simp
    | succ i =>
      have hne : (k + (i + 1) == k) = false := by simp
      rw [hne]
      simp only [List.map_cons, List.getElem?_cons_succ]
      rw [show k + (i + 1) = (k + 1) + i by omega]
      exact ih tl (k + 1) i (by simpa using hi)

theorem deletePrefixDepth_ok (hp : n.part.length = 10) (key : Key) (d : Nat) : ∃ d', deletePrefixDepth (Cell.inner n : Cell V) key d = .ok d' := by
  unfold deletePrefixDepth
  by_cases h0 : (Cell.inner n : Cell V).partialLen > 0
  · rw [if_pos h0]
    simp only [Cell.partialLen, Cell.part]
    unfold checkPrefix maxPrefixLen
    obtain ⟨j, stop, g1, -⟩ := scanEq_spec n.part (key.drop d) (min (min n.partialLen 10) (key.length - d)) 0 (by rw [hp]; omega) (by rw [List.length_drop]; omega)
    simp only [g1, Except.bind_ok, pure, Except.pure]
    exact ⟨_, rfl⟩
  · rw [if_neg h0]
    exact ⟨_, rfl⟩

theorem deletePrefixOwn_runs {key : Key} (hown : OwnLeaf s.heap P n.leaf vals) (hk : getKey key = pre) :
    Runs (deletePrefixOwn (.inner n) key : M V Nat) s fun r s' => Stp0 s.heap.length s s' ∧ s'.heap.length = s.heap.length ∧ r = (vals.filter (Ent.hit pre)).length := by
  unfold deletePrefixOwn
  simp only [Cell.nodeLeaf]
  rcases hown.inv with ⟨ho, rfl⟩ | ⟨l, lc, ho, rfl, hl, hlk⟩
  · rw [ho]
    exact Runs.pure ⟨Stp.refl, rfl, rfl⟩
  · rw [ho]
    refine Runs.bind (Runs.leafAt hl ?_)
    have hh : hasPrefixB (getKey lc.key) (getKey key) = Ent.hit pre (lc.key, lc.value, l) := by rw [hk]; rfl
    rw [hh]
    cases hb : Ent.hit pre (lc.key, lc.value, l) with
    | true =>
      simp only [if_true]
      refine Runs.bind (Runs.mono (trackChannel_runs (N := s.heap.length) (o := some l) fun x hx => by cases hx; exact lt_of_get hl) ?_)
      rintro _ s1 ⟨k1, k2, -⟩
      exact Runs.pure ⟨k1, k2, by simp [List.filter, hb]⟩
    | false =>
      simp only [Bool.false_eq_true, if_false]
      exact Runs.pure ⟨Stp.refl, rfl, by simp [List.filter, hb]⟩

theorem deletePrefixLeaf_runs {key : Key} {l : Addr} {lc : LeafC V} (ha : s.heap[a]? = some (.inner n)) (hleaf : n.leaf = some l) (hl : s.heap[l]? = some (.leaf lc))
    (hk : getKey key = pre) : Runs (deletePrefixLeaf a (.inner n) key : M V (Option Addr × Nat)) s fun r s' => Stp0 s.heap.length s s' ∧ s'.heap.length = s.heap.length ∧
      r = if Ent.hit pre (lc.key, lc.value, l) then (none, 1) else (some a, 0) := by
  unfold deletePrefixLeaf
  simp only [Cell.nodeLeaf, hleaf]
  refine Runs.bind (Runs.leafAt hl ?_)
  have hh : hasPrefixB (getKey lc.key) (getKey key) = Ent.hit pre (lc.key, lc.value, l) := by rw [hk]; rfl
  rw [hh]
  cases hb : Ent.hit pre (lc.key, lc.value, l) with
  | true =>
    simp only [if_true]
    refine Runs.bind (Runs.mono (trackChannel_runs (N := s.heap.length) (o := some a) fun x hx => by cases hx; exact lt_of_get ha) ?_)
    rintro _ s1 ⟨k1, k2, -⟩
    refine Runs.bind (Runs.mono (trackChannel_runs (N := s.heap.length) (o := some l) fun x hx => by cases hx; rw [k2]; exact lt_of_get hl) ?_)
    rintro _ s2 ⟨k3, k4, -⟩
    exact Runs.pure ⟨k1.then0 k3, by rw [k4, k2], rfl⟩
  | false =>
    simp only [Bool.false_eq_true, if_false]
    exact Runs.pure ⟨Stp.refl, rfl, rfl⟩

/-- If not every entry of a node has the prefix, the entries with the prefix lie below one edge. -/
theorem hits_below {b : Byte} {c : Addr} {e : Ent V} (hown : OwnLeaf h P n.leaf vals) (hch : ∀ b c, (b, c) ∈ es → Rep h (P ++ [b]) c (f b) (g b))
    (hnot : ¬ AllHit pre (vals ++ es.flatMap fun e => f e.1)) (hb : (b, c) ∈ es) (he : e ∈ f b) (hh : Ent.hit pre e = true) : P ++ [b] <+: pre := by
  have h1 : pre <+: e.1 := Ent.hit_prefix hh
  have h2 := (hch b c hb).prefix e he
  rcases List.prefix_or_prefix_of_prefix h1 h2 with h3 | h3
  · rcases List.prefix_concat_iff.1 h3 with h3 | h3
    · rw [h3]; exact List.prefix_refl _
    · refine absurd (fun e' he' => Ent.hit_iff.2 ?_) hnot
      obtain ⟨x, hx⟩ := node_longer hown hch he'
      exact h3.trans (getKey_longer hx)
  · exact h3

theorem own_not_hit (hown : OwnLeaf h P n.leaf vals) (hch : ∀ b c, (b, c) ∈ es → Rep h (P ++ [b]) c (f b) (g b))
    (hnot : ¬ AllHit pre (vals ++ es.flatMap fun e => f e.1)) {e : Ent V} (he : e ∈ vals) : Ent.hit pre e = false := by
  refine Bool.eq_false_iff.2 fun hh => hnot fun e' he' => Ent.hit_iff.2 ?_
  obtain ⟨x, hx⟩ := node_longer hown hch he'
  refine List.IsPrefix.trans ?_ (getKey_longer hx)
  rcases hown.inv with ⟨-, rfl⟩ | ⟨l, lc, -, rfl, -, hk⟩
  · cases he
  · have h1 := Ent.hit_iff.1 hh
    rw [List.mem_singleton.1 he] at h1
    simp only [hk, getKey_snoc] at h1
    exact h1

/-- Every child of such a node has none or several entries with the prefix. -/
theorem kids_two {b : Byte} {c : Addr} (hown : OwnLeaf h P n.leaf vals) (hch : ∀ b c, (b, c) ∈ es → Rep h (P ++ [b]) c (f b) (g b))
    (hnot : ¬ AllHit pre (vals ++ es.flatMap fun e => f e.1)) (htw : Two pre (vals ++ es.flatMap fun e => f e.1)) (hb : (b, c) ∈ es) : Two pre (f b) := fun e he hh => by
  have h1 := hits_below hown hch hnot hb he hh
  obtain ⟨e', he', hh', hne⟩ := htw e (List.mem_append_right _ (List.mem_flatMap.2 ⟨_, hb, he⟩)) hh
  rcases node_keys hown hch he' with ⟨-, h2⟩ | ⟨b', c', hb', h2, h3⟩
  · rw [own_not_hit hown hch hnot h2] at hh'; cases hh'
  · have h4 := hits_below hown hch hnot hb' h2 hh'
    have h5 : P ++ [b'] = P ++ [b] := by
      rcases List.prefix_or_prefix_of_prefix h1 h4 with h | h
      · exact (h.eq_of_length (by simp)).symm
      · exact h.eq_of_length (by simp)
    have h6 : b' = b := by simpa using h5
    subst h6
    exact ⟨e', h2, hh', hne⟩

/-- If every key of a node has the prefix, and none continues another one, the node has no own leaf. -/
theorem allHit_own (hne : es ≠ []) (hown : OwnLeaf h P n.leaf vals) (hnd : n.leaf ≠ none → dollar ∉ es.map (·.1))
    (hch : ∀ b c, (b, c) ∈ es → Rep h (P ++ [b]) c (f b) (g b)) (hall : AllHit pre (vals ++ es.flatMap fun e => f e.1))
    (hfr : HFree pre (vals ++ es.flatMap fun e => f e.1)) : n.leaf = none ∧ vals = [] := by
  rcases hown.inv with ⟨ho, hv⟩ | ⟨l, lc, ho, hv, -, hk⟩
  · exact ⟨ho, hv⟩
  · obtain ⟨⟨b, c⟩, es', rfl⟩ := List.exists_cons_of_ne_nil hne
    have hb : (b, c) ∈ (b, c) :: es' := by simp
    obtain ⟨e', he'⟩ := List.exists_mem_of_ne_nil _ (hch b c hb).ne_nil
    have h1 := (hch b c hb).prefix e' he'
    have hm0 : (lc.key, lc.value, l) ∈ vals ++ ((b, c) :: es').flatMap fun e => f e.1 := by rw [hv]; simp
    have hm' : e' ∈ vals ++ ((b, c) :: es').flatMap fun e => f e.1 := List.mem_append_right _ (List.mem_flatMap.2 ⟨_, hb, he'⟩)
    have h2 := hfr _ hm0 e' hm' (hall _ hm0) (by simp only [hk, getKey_snoc]; exact getKey_longer h1)
    simp only [hk] at h2
    rw [h2] at h1
    have h3 : b = Art.dollar := by
      have := h1.eq_of_length (by simp)
      simpa using this
    exact absurd (by simp [h3]) (hnd (by rw [ho]; simp))

/-- What the call leaves of a node. -/
theorem node_outcome {ds : Edges} {o : Addr → Option Addr} {m : List (Nat × Option Addr)} {S : Addr → Prop} {a' : Addr} {pre : Key} (hi : IsNode h p a n pfx es st vals f g)
    (htn : n.Tidy) (hsm : n.Small) (hds : ds.Perm es) (hpack : n.children = (ds.map fun d => some d.2) ++ List.replicate (n.children.length - ds.length) none)
    (hm : m = n.children.zipIdx.filterMap (fun x => x.1.map fun c => (x.2, o c))) (hreb : Rebuilt n n' m) (ha' : h'[a']? = some (.inner n')) (hSa : S a')
    (hown' : OwnLeaf h' (p ++ pfx) n.leaf vals)
    (hkid : ∀ d ∈ ds, HFree pre (f d.1) → AllHit pre (f d.1) ∨ Two pre (f d.1) → Outcome pre h' S (p ++ pfx ++ [d.1]) (f d.1) (o d.2))
    (hfr : HFree pre (vals ++ es.flatMap fun e => f e.1)) (htw : AllHit pre (vals ++ es.flatMap fun e => f e.1) ∨ Two pre (vals ++ es.flatMap fun e => f e.1)) :
    Outcome pre h' S p (vals ++ es.flatMap fun e => f e.1) (some a') := by
  obtain ⟨ha, hL, hne, hh, hst, hown, hnd, -, hch⟩ := hi
  have hst0 := hL.tidy_none htn
  subst hst0
  have hnum : n.numChildren.toNat = ds.length := by rw [hL.num, hds.length_eq]
  have hpack2 : n.children = (ds.map (·.2)).map some ++ List.replicate (n.children.length - ds.length) none := by
    rw [List.map_map]; exact hpack
  have hslots := hreb.slots (ds.map fun d => o d.2) (by rw [List.length_map, hnum]) fun i hi => by
    rw [List.length_map] at hi
    have := lookup_slots o (ds.map (·.2)) (List.replicate (n.children.length - ds.length) none) 0 i (by rw [List.length_map]; exact hi)
    rw [← hpack2, Nat.zero_add, List.map_map] at this
    rw [hm]; exact this
  obtain ⟨hn1, hn2⟩ := hslots
  have hfrk : ∀ d ∈ ds, HFree pre (f d.1) := fun d hd => hfr.sub fun e he => List.mem_append_right _ (List.mem_flatMap.2 ⟨d, hds.mem_iff.1 hd, he⟩)
  have hmemk : ∀ d ∈ ds, ∀ e ∈ f d.1, e ∈ vals ++ es.flatMap fun e => f e.1 := fun d hd e he => List.mem_append_right _ (List.mem_flatMap.2 ⟨d, hds.mem_iff.1 hd, he⟩)
  by_cases hall : AllHit pre (vals ++ es.flatMap fun e => f e.1)
  · obtain ⟨ho, hv⟩ := allHit_own hne.ne hown hnd hch hall hfr
    refine Or.inr (Or.inl ⟨a', rfl, hall, ?_⟩)
    refine Dead.mk ha' hSa (hL.findOK hreb.kind hreb.keys hreb.len hreb.num) (by rw [hreb.part]; exact hh.part) (by rw [hreb.leaf, ho]) fun c hc => ?_
    rw [hn2] at hc
    rcases List.mem_append.1 hc with hc | hc
    · obtain ⟨c', hc', h1⟩ := List.mem_map.1 hc
      cases h1
      obtain ⟨x, hx, hxc⟩ := List.mem_filterMap.1 hc'
      obtain ⟨d, hd, rfl⟩ := List.mem_map.1 hx
      have hxc : o d.2 = some c := hxc
      have hallk : AllHit pre (f d.1) := fun e he => hall e (hmemk d hd e he)
      rcases hkid d hd (hfrk d hd) (Or.inl hallk) with ⟨h1, -⟩ | ⟨a1, h1, -, h2⟩ | ⟨a1, h1, h2, -⟩
      · rw [h1] at hxc; cases hxc
      · rw [h1] at hxc; cases hxc
        exact h2
      · exact absurd hallk h2
    · exact nomatch (List.mem_replicate.1 hc).2
  · have htw := htw.resolve_left hall
    have htwk : ∀ d ∈ ds, Two pre (f d.1) := fun d hd => kids_two hown hch hall htw (hds.mem_iff.1 hd)
    have hout := fun d hd => hkid d hd (hfrk d hd) (Or.inr (htwk d hd))
    have hsome : ∀ d ∈ ds, ∃ c', o d.2 = some c' := fun d hd => by
      rcases hout d hd with ⟨h1, h2, e, h3⟩ | ⟨a1, h1, -⟩ | ⟨a1, h1, -⟩
      · have := htwk d hd
        rw [h3] at this h2
        exact (h2.not_two this).elim
      · exact ⟨a1, h1⟩
      · exact ⟨a1, h1⟩
    have hphi : ∀ d ∈ ds, o d.2 = some ((o d.2).getD 0) := fun d hd => by
      obtain ⟨c', h1⟩ := hsome d hd
      rw [h1]; rfl
    have hos : (ds.map fun d => o d.2).filterMap _root_.id = ds.map fun d => (o d.2).getD 0 := by
      rw [List.filterMap_map]
      clear hout hsome hkid hm hds hpack hpack2 hnum hn1 hn2 hfrk hmemk htwk
      induction ds with
      | nil => rfl
      | cons d ds ih =>
        rw [List.filterMap_cons, List.map_cons, ← ih fun d hd => hphi d (List.mem_cons_of_mem _ hd)]
        have : (_root_.id ∘ fun d : Byte × Nat => o d.2) d = some ((o d.2).getD 0) := hphi d (by simp)
        rw [this]
    rw [hos, List.length_map] at hn1 hn2
    have hL' : Layout n' (es.map fun e => (e.1, (o e.2).getD 0)) none := by
      refine hL.mapAddr (fun c => (o c).getD 0) hreb.kind ?_ hreb.keys ?_
      · apply UInt8.toNat_inj.1
        rw [hn1, hnum]
      · rw [hn2]
        conv => rhs; rw [hpack]
        rw [List.map_append, List.map_map, List.map_map, List.map_replicate]
        rfl
    refine Or.inr (Or.inr ⟨a', rfl, hall, ?_⟩)
    have hvals : vals.filter (fun e => !Ent.hit pre e) = vals := List.filter_eq_self.2 fun e he => by rw [own_not_hit hown hch hall he]; rfl
    have hE : (vals ++ es.flatMap fun e => f e.1).filter (fun e => !Ent.hit pre e) =
        vals ++ (es.map fun e => (e.1, (o e.2).getD 0)).flatMap fun e => (f e.1).filter fun e => !Ent.hit pre e := by
      rw [List.filter_append, hvals, List.filter_flatMap, List.flatMap_map]
    rw [hE]
    refine Cut.node (pfx := pfx) (f := fun b => (f b).filter fun e => !Ent.hit pre e) (d := fun b => (f b).all (Ent.hit pre)) ha' hSa hL' (by simpa using hne.ne) (hh.congr hreb.plen hreb.part) (by rw [hreb.leaf]; exact hown')
      (fun h => ?_) (fun b c hb hd => ?_) (fun b c hb hd => ?_)
    · rw [hreb.leaf] at h
      have := hnd h
      rw [List.map_map]
      exact this
    · obtain ⟨⟨b', c'⟩, hb', h1⟩ := List.mem_map.1 hb
      cases h1
      have hnall : ¬ AllHit pre (f b') := fun h => by
        have : (f b').all (Ent.hit pre) = true := List.all_eq_true.2 h
        simp only [this] at hd
        cases hd
      rcases hout (b', c') (hds.mem_iff.2 hb') with ⟨-, h2, -⟩ | ⟨a1, -, h2, -⟩ | ⟨a1, h1, -, h2⟩
      · exact absurd h2 hnall
      · exact absurd h2 hnall
      · simp only at h1 h2
        rw [h1]; exact h2
    · obtain ⟨⟨b', c'⟩, hb', h1⟩ := List.mem_map.1 hb
      cases h1
      have hall' : AllHit pre (f b') := List.all_eq_true.1 hd
      refine ⟨?_, hall'.filter⟩
      rcases hout (b', c') (hds.mem_iff.2 hb') with ⟨h1, h2, e, h3⟩ | ⟨a1, h1, -, h2⟩ | ⟨a1, -, h2, -⟩
      · have := htwk (b', c') (hds.mem_iff.2 hb')
        rw [h3] at this h2
        exact (h2.not_two this).elim
      · simp only at h1 h2
        rw [h1]; exact h2
      · exact absurd hall' h2

theorem Rebuilt.like {m : List (Nat × Option Addr)} {i : Nat} {k : Option ChanId} (h : Rebuilt { n with id := i, ch := k } n' m) : Rebuilt n n' m :=
  ⟨h.kind, h.keys, h.part, h.plen, h.leaf, h.len, h.num, h.slots⟩

/-- `deletePrefix` of a well-formed subtree. -/
theorem Rep.prune {key : Key} (hk : getKey key = pre) : ∀ (fuel : Nat) {p : Key} {a : Addr} {E : List (Ent V)} {N : List (Key × Addr)} {s : St V}, Rep s.heap p a E N → TidyN s.heap N →
    N.length ≤ fuel → ∀ depth, Runs (deletePrefix fuel (some a) key depth : M V (Option Addr × Nat)) s (DPost pre p E N s) := by
  intro fuel
  induction fuel with
  | zero =>
    intro p a E N s hr ht hf
    have := List.length_pos_of_mem hr.mem
    omega
  | succ fuel ih =>
    intro p a E N s hr ht hf depth
    unfold deletePrefix
    cases hr with
    | @leaf _ _ n l lc ha hL hpart hw hleaf hl hp hd =>
      have hil : n.isLeaf = true := hL.isLeaf_iff.2 ⟨rfl, by rw [hleaf]; simp⟩
      refine Runs.bind (Runs.cell ha ?_)
      simp only [Cell.isLeaf, hil, if_true]
      refine Runs.mono (deletePrefixLeaf_runs ha hleaf hl hk) ?_
      rintro r s1 ⟨h1, h2, rfl⟩
      refine ⟨h1.mono (Nat.le_refl _) fun _ _ h => h.elim, ?_, ?_, fun _ _ _ => ?_⟩
      · cases hb : Ent.hit pre (lc.key, lc.value, l) <;> simp [List.filter, hb]
      · intro a' ha'
        cases hb : Ent.hit pre (lc.key, lc.value, l) with
        | true => rw [hb] at ha'; cases ha'
        | false => rw [hb] at ha'; cases ha'; rw [h2]; exact lt_of_get ha
      · cases hb : Ent.hit pre (lc.key, lc.value, l) with
        | true => exact Or.inl ⟨rfl, fun e he => by rw [List.mem_singleton.1 he]; exact hb, _, rfl⟩
        | false =>
          refine Or.inr (Or.inr ⟨a, rfl, fun h => ?_, ?_⟩)
          · have := h _ (List.mem_singleton.2 rfl)
            rw [hb] at this; cases this
          · have hfil : [(lc.key, lc.value, l)].filter (fun e => !Ent.hit pre e) = [(lc.key, lc.value, l)] := by simp [List.filter, hb]
            rw [hfil]
            refine Cut.frame (h := s.heap) (S := fun x => x = a) (Cut.leaf ha rfl hL hpart hleaf hl hp) (fun x hx hlt => h1.eqv hlt) (fun x lc hx => h1.eqv (lt_of_get hx)) ?_
            rintro x rfl
            exact Or.inl (by simp)
    | @node _ _ n pfx es st vals f g ha hL hne hh hst hown hnd htw hch =>
      have hi : IsNode s.heap p a n pfx es st vals f g := ⟨ha, hL, hne, hh, hst, hown, hnd, htw, hch⟩
      have hnl : n.isLeaf = false := Bool.eq_false_iff.2 fun hl => hne.ne (hL.isLeaf_iff.1 hl).1
      have htn : n.Tidy := ht a (by simp) n ha
      have hkn := kids_nodup hL.sorted hch
      obtain ⟨ds, hds, hsl, -⟩ := hL.slotEdges htn hkn
      have hsub : ∀ d ∈ ds, ∀ x ∈ (g d.1).map (·.2), x ∈ ((p, a) :: es.flatMap fun e => g e.1).map (·.2) := fun d hd x hx => by
        obtain ⟨y, hy, rfl⟩ := List.mem_map.1 hx
        exact List.mem_map.2 ⟨y, List.mem_cons_of_mem _ (List.mem_flatMap.2 ⟨d, hds.mem_iff.1 hd, hy⟩), rfl⟩
      have hna : ∀ d ∈ ds, a ∉ (g d.1).map (·.2) := fun d hd hx => hi.notin (hds.mem_iff.1 hd) (Or.inl hx)
      refine Runs.bind (Runs.cell ha ?_)
      simp only [Cell.isLeaf, hnl, Bool.false_eq_true, if_false]
      obtain ⟨d', hd'⟩ := deletePrefixDepth_ok (V := V) hh.part key depth
      refine Runs.bind (Runs.lift hd' (Runs.bind (Runs.mono (deletePrefixOwn_runs hown hk) ?_)))
      rintro own s1 ⟨k1, k2, rfl⟩
      have hch1 : ∀ d ∈ ds, Rep s1.heap (p ++ pfx ++ [d.1]) d.2 (f d.1) (g d.1) := fun d hd => (hch d.1 d.2 (hds.mem_iff.1 hd)).step k1 fun _ _ h => h
      have htd1 : ∀ d ∈ ds, TidyN s1.heap (g d.1) := fun d hd =>
        TidyN.step (fun x hx => ht x (hsub d hd x hx)) (hch d.1 d.2 (hds.mem_iff.1 hd)) k1 fun _ _ h => h
      refine Runs.bind (Runs.mono (deletePrefixChildren_runs (pre := pre) (P := p ++ pfx) (f := f) (g := g) (Cell.inner n : Cell V).children.zipIdx ds s1 ?_ ?_ hch1 htd1 ?_) ?_)
      · rw [← hsl]
        simp only [Cell.children]
        rw [show (fun x : Option Addr × Nat => x.1) = _root_.id ∘ Prod.fst from rfl, ← List.filterMap_map, List.zipIdx_map_fst]
      · refine (hds.map _).nodup_iff.2 ?_
        rw [List.Nodup, List.pairwise_map]
        exact List.Pairwise.imp (fun {x y} hlt heq => by rw [heq] at hlt; exact Byte.lt_irrefl hlt) hL.sorted
      · intro d hd t hrt htt
        refine ih hrt htt ?_ _
        have h1 : (g d.1).length ≤ (es.flatMap fun e => g e.1).length := by
          obtain ⟨l, r, hlr⟩ := List.append_of_mem (hds.mem_iff.1 hd)
          rw [hlr]
          simp only [List.flatMap_append, List.flatMap_cons, List.length_append]
          omega
        simp only [List.length_cons] at hf
        omega
      rintro ⟨m, del⟩ s2 ⟨g1, g2, o, g3, g4⟩
      simp only at g2 g3 ⊢
      obtain ⟨i1, c1, ha1⟩ := (k1.eqv (lt_of_get ha)).inner ha
      obtain ⟨i2, c2, ha2⟩ := (g1.frame a (lt_of_get ha1) fun ⟨d, hd, hx⟩ => hna d hd hx).inner ha1
      simp only at ha2
      have hstp2 : Stp s.heap.length (fun x => ∃ d ∈ ds, x ∈ (g d.1).map (·.2)) s s2 := Stp0.then k1 (g1.mono (by rw [k2]; exact Nat.le_refl _) fun _ _ h => h)
      have hin2 : ∀ x, (∃ d ∈ ds, x ∈ (g d.1).map (·.2)) → ∃ n, s.heap[x]? = some (.inner n) := fun x ⟨d, hd, hx⟩ => by
        obtain ⟨⟨q, y⟩, hy, rfl⟩ := List.mem_map.1 hx
        exact (hch d.1 d.2 (hds.mem_iff.1 hd)).inner_of q y hy
      have hown2 : OwnLeaf s2.heap (p ++ pfx) n.leaf vals := hown.frame fun x hx => by
        rcases hown.inv with ⟨-, rfl⟩ | ⟨l, lc, -, rfl, hl, -⟩
        · cases hx
        · rw [List.mem_singleton.1 hx]
          exact leaf_eqv hstp2 hin2 _ _ hl
      have hlok2 : LeafOK s2.heap n.leaf := fun l hl => by
        rcases hown2.inv with ⟨ho, -⟩ | ⟨l', lc, ho, -, hl', -⟩
        · rw [ho] at hl; cases hl
        · rw [ho] at hl; cases hl
          exact ⟨_, hl'⟩
      refine Runs.bind (Runs.mono (rebuild_runs (Z := s.heap.length) (m := m) ha2 hh.part hlok2 hL.num_le) ?_)
      rintro a' s3 ⟨q1, q2, n', q3, q4⟩
      refine Runs.pure ⟨?_, ?_, ?_, fun hsm hfr htw => ?_⟩
      · refine (hstp2.mono (Y := fun x => x ∈ ((p, a) :: es.flatMap fun e => g e.1).map (·.2)) (Nat.le_refl _) fun x _ ⟨d, hd, hx⟩ => hsub d hd x hx).trans q1 ?_
        rintro x - rfl
        simp
      · simp only [List.filter_append, List.length_append]
        rw [g2]
        congr 1
        exact ((hds.flatMap_right _).filter _).length_eq
      · rintro x hx
        cases hx
        exact lt_of_get q3
      · have hsmn : n.Small := hsm a (by simp) n ha hnl
        obtain ⟨ds', hds', hpk⟩ := hL.packed htn hsmn hkn
        refine node_outcome (n' := n') hi htn hsmn hds' hpk g3 q4.like q3 ?_ ?_ ?_ hfr htw
        · rcases q2 with rfl | q2
          · exact Or.inl (by simp)
          · exact Or.inr (Nat.le_trans hstp2.len q2)
        · refine hown2.frame fun x hx => ?_
          rcases hown2.inv with ⟨-, rfl⟩ | ⟨l, lc, -, rfl, hl, -⟩
          · cases hx
          · rw [List.mem_singleton.1 hx]
            exact leaf_eqv q1 (fun x hx => ⟨_, hx ▸ ha2⟩) _ _ hl
        · intro d hd hfd htd
          have hd : d ∈ ds := hds.mem_iff.2 (hds'.mem_iff.1 hd)
          have hsm1 : SmallN s1.heap (g d.1) := SmallN.step (fun x hx => hsm x (hsub d hd x hx)) (hch d.1 d.2 (hds.mem_iff.1 hd)) k1 fun _ _ h => h
          refine (g4 d hd hsm1 hfd htd).frame (fun x hx hlt => ?_) (leaf_eqv q1 fun x hx => ⟨_, hx ▸ ha2⟩) fun x hx => ?_
          · refine q1.frame x hlt ?_
            rintro rfl
            rcases hx with hx | hx
            · exact hna d hd hx
            · have := lt_of_get ha
              rw [k2] at hx
              omega
          · rcases hx with hx | hx
            · exact Or.inl (hsub d hd x hx)
            · exact Or.inr (by rw [k2] at hx; exact hx)

end Art
