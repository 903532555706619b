import Verif.Proofs.Slots
import Verif.Proofs.SaneRead
import Verif.Model.Extra
/-
What `DFS` visits.
-/
set_option autoImplicit false
set_option linter.unusedVariables false
set_option linter.unusedSimpArgs false
set_option linter.unusedSectionVars false
namespace Art
variable {V : Type}

/-- The child in slot `i`, if there is one. -/
def Inner.slot (n : Inner) (i : Nat) : Option Addr := (n.children[i]?).getD none

theorem getChild_slot {n : Inner} {i : Nat} (hk : n.kind ≠ .n256) (hi : i < n.children.length) : n.getChild i = .ok (n.slot i) := by
  unfold Inner.getChild Inner.slot
  have : ¬ ((i : Int) < 0) := by omega
  cases hkk : n.kind <;> simp only [hkk, this, if_false, Int.toNat_natCast, List.getElem?_eq_getElem hi, Option.getD_some]
  exact absurd hkk hk

theorem dfsChildren_run {rec : Addr → R (List Addr)} {n : Inner} {G : Addr → List Addr} (hk : n.kind ≠ .n256) (l : List Nat)
    (hl : ∀ i ∈ l, i < n.children.length) (hrec : ∀ i ∈ l, ∀ a, n.slot i = some a → rec a = .ok (G a)) :
    dfsChildren rec (.inner n : Cell V) l = .ok ((l.filterMap n.slot).flatMap G) := by
  induction l with
  | nil => rfl
  | cons i l ih =>
    unfold dfsChildren
    rw [show (Cell.inner n : Cell V).getChild i = n.getChild i from rfl, getChild_slot hk (hl i (by simp)), Except.bind_ok]
    have ih := ih (fun i hi => hl i (by simp [hi])) fun i hi => hrec i (by simp [hi])
    cases hs : n.slot i with
    | none => simp only [List.filterMap_cons, hs]; exact ih
    | some a =>
      simp only [List.filterMap_cons, hs, List.flatMap_cons]
      rw [hrec i (by simp) a hs, Except.bind_ok, ih, Except.bind_ok]
      rfl

theorem slots_take (n : Inner) (k : Nat) (hk : k ≤ n.children.length) :
    (List.range k).filterMap n.slot = (n.children.take k).filterMap _root_.id := by
  induction k with
  | zero => rfl
  | succ k ih =>
    rw [List.range_succ, List.filterMap_append, ih (by omega), List.take_succ_eq_append_getElem (by omega), List.filterMap_append]
    simp only [List.filterMap_cons, List.filterMap_nil, Inner.slot, List.getElem?_eq_getElem (show k < n.children.length by omega), Option.getD_some, _root_.id]

variable [Removals] {h : Heap V} {p : Key} {a : Addr} {E : List (Ent V)} {N : List (Key × Addr)} {n : Inner} {es : Edges} {st : Option Addr}

/-- The first slots of a node hold its children. -/
theorem Layout.front (hL : Layout n es st) (hk : n.kind ≠ .n256) (ht : n.kind = .n48 → n.Tidy) (hnd : (es.map (·.2)).Nodup) :
    n.numChildren.toNat ≤ n.children.length ∧ ∃ ds : Edges, ds.Perm es ∧ (List.range n.numChildren.toNat).filterMap n.slot = ds.map (·.2) := by
  have hnum := hL.num
  have harr : ∀ cap, Arr cap n es st → n.numChildren.toNat ≤ n.children.length ∧ (n.children.take n.numChildren.toNat) = es.map fun e => some e.2 := fun cap hb => by
    obtain ⟨-, -, ⟨-, -, h2⟩ | ⟨-, h2⟩⟩ := hb
    · rw [h2, hnum]; exact ⟨by simp, by rw [List.take_of_length_le (by simp)]⟩
    · rw [h2, hnum]; exact ⟨by simp, by rw [List.take_left' (by simp)]⟩
  have harr2 : ∀ cap, Arr cap n es st → n.numChildren.toNat ≤ n.children.length ∧ ∃ ds : Edges, ds.Perm es ∧ (List.range n.numChildren.toNat).filterMap n.slot = ds.map (·.2) := fun cap hb => by
    obtain ⟨h1, h2⟩ := harr cap hb
    refine ⟨h1, es, .refl _, ?_⟩
    rw [slots_take n _ h1, h2]
    clear hb h1 h2 hL hnd hnum harr
    induction es <;> simp_all
  rcases hL.kinds with ⟨hk, hb⟩ | ⟨hk, hb⟩ | ⟨hk1, hb, -⟩ | ⟨hk1, hb, -⟩
  · exact harr2 4 hb
  · exact harr2 16 hb
  · have hle : n.numChildren.toNat ≤ n.children.length := by rw [hb.clen, hnum]; exact hb.le
    obtain ⟨ds, h1, h2, -⟩ := hL.slotEdges (ht hk1) hnd
    refine ⟨hle, ds, h1, ?_⟩
    rw [slots_take n _ hle, ← h2]
    conv => rhs; rw [← List.take_append_drop n.numChildren.toNat n.children, List.filterMap_append]
    have hnil : (n.children.drop n.numChildren.toNat).filterMap _root_.id = [] := by
      refine List.filterMap_eq_nil_iff.2 fun o ho => ?_
      obtain ⟨i, hi, rfl⟩ := List.getElem_of_mem ho
      rw [List.getElem_drop]
      have := ht hk1 (by unfold Inner.Small; rw [hk1]; nofun) (n.numChildren.toNat + i) (by omega)
      rw [List.length_drop] at hi
      rw [List.getElem?_eq_getElem (by omega), Option.getD_some] at this
      exact this
    rw [hnil, List.append_nil]
  · exact absurd hk1 hk

/-- `DFS` visits the nodes of a tree of small nodes. -/
theorem Rep.dfs (hr : Rep h p a E N) : (∀ x ∈ N.map (·.2), ∀ n, h[x]? = some (.inner n) → n.isLeaf = false → n.kind ≠ .n256 ∧ (n.kind = .n48 → n.Tidy)) →
    ∃ l : List Addr, l.Perm (N.map (·.2)) ∧ l.head? = some a ∧ ∀ fuel, N.length ≤ fuel → dfsNode h fuel a = .ok l := by
  induction hr with
  | @leaf p a n l lc ha hL hpart hw hleaf hl hp hd =>
    intro hk
    refine ⟨[a], .refl _, rfl, fun fuel hf => ?_⟩
    obtain ⟨fuel, rfl⟩ : ∃ k, fuel = k + 1 := ⟨fuel - 1, by simp at hf; omega⟩
    rw [dfsNode, rd_eq ha, Except.bind_ok]
    have : (Cell.inner n : Cell V).numChildren.toNat = 0 := hL.num
    rw [this]
    rfl
  | @node p a n pfx es st vals f g ha hL hne hh hst hown hnd htw hch ih =>
    intro hk
    have hlf : n.isLeaf = false := hL.not_leaf hne
    obtain ⟨hk1, hk2⟩ := hk a (by simp) n ha hlf
    obtain ⟨h1, ds, h2, h3⟩ := hL.front hk1 hk2 (kids_nodup hL.sorted hch)
    have hsub : ∀ e ∈ es, ∀ y ∈ (g e.1).map (·.2), y ∈ ((p, a) :: es.flatMap fun e => g e.1).map (·.2) := fun e he y hy => by
      obtain ⟨z, hz, rfl⟩ := List.mem_map.1 hy
      exact List.mem_map.2 ⟨z, List.mem_cons_of_mem _ (List.mem_flatMap.2 ⟨e, he, hz⟩), rfl⟩
    have hex : ∀ c : Addr, ∃ l : List Addr, ∀ b, (b, c) ∈ es → l.Perm ((g b).map (·.2)) ∧ ∀ fuel, (g b).length ≤ fuel → dfsNode h fuel c = .ok l := fun c => by
      by_cases hc : ∃ b, (b, c) ∈ es
      · obtain ⟨b, hb⟩ := hc
        obtain ⟨l, i1, -, i2⟩ := ih b c hb fun x hx => hk x (hsub _ hb x hx)
        refine ⟨l, fun b' hb' => ?_⟩
        have : b' = b := by
          have hn := kids_nodup hL.sorted hch
          rw [List.Nodup, List.pairwise_map, List.pairwise_iff_getElem] at hn
          obtain ⟨x, hx, hxe⟩ := List.getElem_of_mem hb
          obtain ⟨y, hy, hye⟩ := List.getElem_of_mem hb'
          rcases Nat.lt_trichotomy x y with h5 | h5 | h5
          · exact absurd (by rw [hxe, hye]) (hn x y hx hy h5)
          · subst h5; rw [hxe] at hye; exact (congrArg (·.1) hye).symm
          · exact absurd (by rw [hxe, hye]) (hn y x hy hx h5)
        subst this
        exact ⟨i1, i2⟩
      · exact ⟨[], fun b hb => absurd ⟨b, hb⟩ hc⟩
    obtain ⟨G, hG⟩ := Classical.axiomOfChoice hex
    refine ⟨a :: (ds.map (·.2)).flatMap G, ?_, rfl, fun fuel hf => ?_⟩
    · rw [List.map_cons]
      refine .cons _ ?_
      rw [List.flatMap_map, List.map_flatMap]
      refine (h2.flatMap_right _).trans ?_
      have : ∀ l : Edges, (∀ d ∈ l, d ∈ es) → (l.flatMap fun d => G d.2).Perm (l.flatMap fun d => (g d.1).map (·.2)) := fun l => by
        induction l with
        | nil => intro; exact .refl _
        | cons d l ihl =>
          intro hl
          rw [List.flatMap_cons, List.flatMap_cons]
          exact (hG d.2 d.1 (hl d (by simp))).1.append (ihl fun d hd => hl d (by simp [hd]))
      exact this es fun _ h => h
    · obtain ⟨fuel, rfl⟩ : ∃ k, fuel = k + 1 := ⟨fuel - 1, by simp at hf; omega⟩
      rw [dfsNode, rd_eq ha, Except.bind_ok]
      rw [show (Cell.inner n : Cell V).numChildren = n.numChildren from rfl, dfsChildren_run (G := G) hk1, h3]
      · rfl
      · intro i hi; have := List.mem_range.1 hi; omega
      · intro i hi c hc
        have : c ∈ ds.map (·.2) := by rw [← h3]; exact List.mem_filterMap.2 ⟨i, hi, hc⟩
        obtain ⟨⟨b, c'⟩, hd, rfl⟩ := List.mem_map.1 this
        have hde := h2.subset hd
        refine (hG _ _ hde).2 fuel ?_
        obtain ⟨u, v, huv⟩ := List.append_of_mem hde
        simp only [List.length_cons, huv, List.flatMap_append, List.flatMap_cons, List.length_append] at hf
        omega

/-- Without removals the nodes have no pointers behind their live children. -/
theorem Rep.tidyNodes (hr : Rep h p a E N) (hno : ¬ Removals.allowed) : ∀ x ∈ N.map (·.2), ∀ n, h[x]? = some (.inner n) → n.isLeaf = false → n.Tidy := by
  induction hr with
  | @leaf p a n l lc ha hL hpart hw hleaf hl hp hd =>
    intro x hx n' hn' hlf
    cases List.mem_singleton.1 hx
    rw [ha] at hn'; cases hn'
    rw [hL.isLeaf_iff.2 ⟨rfl, by rw [hleaf]; nofun⟩] at hlf
    cases hlf
  | @node p a n pfx es st vals f g ha hL hne hh hst hown hnd htw hch ih =>
    intro x hx n' hn' hlf
    rw [List.map_cons] at hx
    rcases List.mem_cons.1 hx with rfl | hx
    · rw [ha] at hn'; cases hn'
      exact (htw.resolve_left hno).1
    · obtain ⟨y, hy, rfl⟩ := List.mem_map.1 hx
      obtain ⟨⟨b, c⟩, hb, hy⟩ := List.mem_flatMap.1 hy
      exact ih b c hb y.2 (List.mem_map.2 ⟨y, hy, rfl⟩) n' hn' hlf

/-- Node `b` can be come to from node `a` by looking up bytes. -/
inductive Leads (h : Heap V) (a : Addr) : Addr → Prop
  | here : Leads h a a
  | step {b c : Addr} {n : Inner} {x : Byte} {i : Nat} (hb : Leads h a b) (hn : h[b]? = some (.inner n)) (hc : n.findChild x = .ok (some c, i)) : Leads h a c

theorem Leads.trans {a b c : Addr} (h1 : Leads h a b) (h2 : Leads h b c) : Leads h a c := by
  induction h2 with
  | here => exact h1
  | step _ hn hc ih => exact ih.step hn hc

theorem Rep.closedN (hr : Rep h p a E N) : ∀ {b c : Addr} {m : Inner} {x : Byte} {i : Nat}, b ∈ N.map (·.2) → h[b]? = some (.inner m) →
    m.findChild x = .ok (some c, i) → c ∈ N.map (·.2) := by
  induction hr with
  | @leaf p a n l lc ha hL hpart hw hleaf hl hp hd =>
    intro b c m x i hb hm hc
    cases List.mem_singleton.1 hb
    rw [ha] at hm; cases hm
    rw [hL.find_none (b := x) (by simp)] at hc
    cases hc
  | @node p a n pfx es st vals f g ha hL hne hh hst hown hnd htw hch ih =>
    intro b c m x i hb hm hc
    rw [List.map_cons] at hb ⊢
    rcases List.mem_cons.1 hb with rfl | hb
    · rw [ha] at hm; cases hm
      rcases hL.findChild_iff x with ⟨-, h1⟩ | ⟨l, c', r, j, he, h1, -⟩
      · rw [h1] at hc; cases hc
      · rw [h1] at hc; cases hc
        have hm : (x, c) ∈ es := by rw [he]; simp
        exact List.mem_cons_of_mem _ (List.mem_map.2 ⟨_, List.mem_flatMap.2 ⟨_, hm, (hch x c hm).top⟩, rfl⟩)
    · obtain ⟨y, hy, rfl⟩ := List.mem_map.1 hb
      obtain ⟨e, he, hy⟩ := List.mem_flatMap.1 hy
      obtain ⟨z, hz, rfl⟩ := List.mem_map.1 (ih e.1 e.2 he (List.mem_map.2 ⟨y, hy, rfl⟩) hm hc)
      exact List.mem_cons_of_mem _ (List.mem_map.2 ⟨z, List.mem_flatMap.2 ⟨e, he, hz⟩, rfl⟩)

theorem Rep.leads (hr : Rep h p a E N) (x : Addr) : x ∈ N.map (·.2) ↔ Leads h a x := by
  constructor
  · intro hx
    induction hr with
    | @leaf p a n l lc ha hL hpart hw hleaf hl hp hd => cases List.mem_singleton.1 hx; exact .here
    | @node p a n pfx es st vals f g ha hL hne hh hst hown hnd htw hch ih =>
      rw [List.map_cons] at hx
      rcases List.mem_cons.1 hx with rfl | hx
      · exact .here
      · obtain ⟨y, hy, rfl⟩ := List.mem_map.1 hx
        obtain ⟨⟨b, c⟩, hb, hy⟩ := List.mem_flatMap.1 hy
        obtain ⟨l, r, he⟩ := List.append_of_mem hb
        obtain ⟨i, hf, -⟩ := (he ▸ hL).find
        exact (Leads.here.step ha hf).trans (ih b c hb (List.mem_map.2 ⟨y, hy, rfl⟩))
  · intro hx
    induction hx with
    | here => exact List.mem_map.2 ⟨_, hr.top, rfl⟩
    | step _ hn hc ih => exact hr.closedN ih hn hc

end Art
