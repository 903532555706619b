import Verif.PrintSpec
import Verif.Proofs.Slots
import Verif.Proofs.Dfs
import Verif.Props.Calm
import Verif.Props.Readers
/-
Printing a tree ends, does not panic, and only gives channels to nodes that had none.
-/
set_option autoImplicit false
set_option linter.unusedVariables false
set_option linter.unusedSimpArgs false
set_option linter.unusedSectionVars false
namespace Art
variable {V : Type}

theorem Under.cons {h : Heap V} {r e a : Addr} {k : Nat} {n : Inner} (hr : h[r]? = some (.inner n)) (he : some e ∈ n.children) (hu : Under h e k a) :
    Under h r (k + 1) a := by
  induction hu with
  | here => exact .child .here hr he
  | child _ h1 h2 ih => exact .child ih h1 h2

theorem Under.uncons {h : Heap V} {r a : Addr} {k : Nat} (hu : Under h r k a) : k = 0 ∧ a = r ∨
    ∃ j n e, k = j + 1 ∧ h[r]? = some (.inner n) ∧ some e ∈ n.children ∧ Under h e j a := by
  induction hu with
  | here => exact .inl ⟨rfl, rfl⟩
  | child h1 h2 h3 ih =>
    rcases ih with ⟨rfl, rfl⟩ | ⟨j, n, e, rfl, h4, h5, h6⟩
    · exact .inr ⟨0, _, _, rfl, h2, h3, .here⟩
    · exact .inr ⟨j + 1, n, e, rfl, h4, h5, .child h6 h2 h3⟩

theorem Cell.setCh_ch (c : Cell V) (k : Option ChanId) : (c.setCh k).ch = k := by cases c <;> rfl

theorem Lit.refl (s : St V) : Lit s s := ⟨rfl, fun a c h => ⟨c.ch, by rw [Cell.setCh_self]; exact h, fun x hx => hx⟩, ⟨0, by simp⟩, rfl⟩

theorem Lit.trans {s s' s'' : St V} (h1 : Lit s s') (h2 : Lit s' s'') : Lit s s'' := by
  refine ⟨h2.len.trans h1.len, fun a c h => ?_, ?_, h2.txn.trans h1.txn⟩
  · obtain ⟨k, hk, hx⟩ := h1.cell a c h
    obtain ⟨k', hk', hx'⟩ := h2.cell a _ hk
    rw [Cell.setCh_setCh] at hk'
    exact ⟨k', hk', fun x h => hx' x (by rw [Cell.setCh_ch, hx x h])⟩
  · obtain ⟨n, hn⟩ := h1.chans
    obtain ⟨m, hm⟩ := h2.chans
    exact ⟨n + m, by rw [hm, hn, List.append_assoc, List.replicate_append_replicate]⟩

theorem getMutateCh_lit {s : St V} {a : Addr} {c : Cell V} (hc : s.heap[a]? = some c) :
    ∃ k s', getMutateCh a s = (.ok k, s') ∧ Lit s s' ∧ chanOf s'.heap a = some k := by
  cases hk : c.ch with
  | some k => exact ⟨k, s, by rw [getMutateCh_run, hc]; simp only [hk], .refl s, by simp [chanOf, hc, hk]⟩
  | none =>
    have hrun : getMutateCh a s = (.ok s.chans.length, { s with
          heap := s.heap.set a (c.setCh (some s.chans.length)), chans := s.chans ++ [false] }) := by
      rw [getMutateCh_run, hc]; simp only [hk]
    refine ⟨_, _, hrun, ⟨by simp, fun b d hd => ?_, ⟨1, rfl⟩, rfl⟩, ?_⟩
    · by_cases hb : b = a
      · subst hb
        rw [hc] at hd; cases hd
        refine ⟨some s.chans.length, ?_, fun x hx => by rw [hk] at hx; cases hx⟩
        rw [List.getElem?_set_self (List.getElem?_eq_some_iff.1 hc).1]
      · refine ⟨d.ch, ?_, fun x hx => hx⟩
        rw [Cell.setCh_self, List.getElem?_set_ne (Ne.symm hb)]; exact hd
    · rw [chanOf, List.getElem?_set_self (List.getElem?_eq_some_iff.1 hc).1]
      exact Cell.setCh_ch _ _

theorem Lit.chanOf {s s' : St V} (h : Lit s s') {a : Addr} {k : ChanId} (hk : chanOf s.heap a = some k) : Art.chanOf s'.heap a = some k := by
  unfold Art.chanOf at hk ⊢
  cases hc : s.heap[a]? with
  | none => rw [hc] at hk; cases hk
  | some c =>
    rw [hc] at hk
    obtain ⟨k', h1, h2⟩ := h.cell a c hc
    rw [h1, h2 k hk]
    exact Cell.setCh_ch _ _

theorem Lit.back {s s' : St V} (h : Lit s s') {a : Addr} {c' : Cell V} (hc' : s'.heap[a]? = some c') :
    ∃ c k, s.heap[a]? = some c ∧ c' = c.setCh k := by
  have hlt : a < s.heap.length := by rw [← h.len]; exact (List.getElem?_eq_some_iff.1 hc').1
  obtain ⟨k, h1, -⟩ := h.cell a _ (List.getElem?_eq_getElem hlt)
  rw [h1] at hc'
  exact ⟨_, k, List.getElem?_eq_getElem hlt, (Option.some.inj hc').symm⟩

theorem Line.Shows.lit {s s' : St V} {x : Line} (hx : x.Shows s.heap) (h : Lit s s') : x.Shows s'.heap := by
  refine ⟨h.chanOf hx.ch, fun c' hc' b hb => ?_⟩
  obtain ⟨c, k, hc, rfl⟩ := h.back hc'
  rw [Cell.nodeLeaf_setCh] at hb
  obtain ⟨k, h1, h2⟩ := hx.leaf c hc b hb
  exact ⟨k, h1, h.chanOf h2⟩

/-- The pointers lead to nodes. -/
def Firmly (h : Heap V) : Prop := ∀ (a : Addr) n, h[a]? = some (.inner n) →
  (∀ b, n.leaf = some b → ∃ l, h[b]? = some (.leaf l)) ∧ ∀ b, some b ∈ n.children → ∃ c, h[b]? = some c

/-- The nodes in the order in which they are printed. -/
def kindred (h : Heap V) : Nat → Addr → List Addr
  | 0, _ => []
  | fuel + 1, a => a :: match h[a]? with
    | some c => (c.children.filterMap _root_.id).flatMap (kindred h fuel)
    | none => []

theorem printLeaf_lit {s0 s : St V} (hf : Firmly s0.heap) (hs : Lit s0 s) {a : Addr} {c : Cell V} (hc : s0.heap[a]? = some c) :
    ∃ o s', printLeaf c.nodeLeaf s = (.ok o, s') ∧ Lit s s' ∧
      (match c.nodeLeaf with
        | none => o = none
        | some b => ∃ l k, s0.heap[b]? = some (.leaf l) ∧ o = some (l.key, k) ∧ chanOf s'.heap b = some k) := by
  cases hb : c.nodeLeaf with
  | none => exact ⟨none, s, rfl, .refl s, rfl⟩
  | some b =>
    cases c with
    | leaf l => cases hb
    | inner n =>
      obtain ⟨l, hl⟩ := (hf a n hc).1 b hb
      obtain ⟨k, hk, -⟩ := hs.cell b _ hl
      obtain ⟨k', s', h1, h2, h3⟩ := getMutateCh_lit hk
      refine ⟨some (l.key, k'), s', ?_, h2, l, k', hl, rfl, h3⟩
      simp only [printLeaf]
      have h4 : (leafAt b : M V (LeafC V)) s = (.ok { l with ch := k }, s) := by
        show (rdLeaf s.heap b, s) = _
        unfold rdLeaf
        rw [hk]; rfl
      rw [bind_run, h4]
      simp only
      rw [bind_run, h1]
      rfl

theorem Listed.snoc {h : Heap V} {d : Nat} {a : Addr} {cs : List (Option Addr)} {l l' : List (Addr × Nat)} (h1 : Listed h d [some a] l) (h2 : Listed h d cs l') :
    Listed h d (some a :: cs) (l ++ l') := by
  cases h1 with
  | leaf ha h3 => cases h3; exact .leaf ha h2
  | inner ha h3 h4 =>
    cases h4
    rw [List.append_nil]
    exact .inner ha h3 h2

theorem printChildren_lit {s0 : St V} (rec : Addr → M V (List Line)) (N : Addr → List Addr) (d : Nat) (cs : List (Option Addr)) : ∀ s : St V, Lit s0 s →
    (∀ b, some b ∈ cs → ∀ s, Lit s0 s → ∃ l s', rec b s = (.ok l, s') ∧ Lit s s' ∧ Printed s0.heap s'.heap b d l ∧ l.map (·.node) = N b) →
    ∃ l s', printChildren rec cs s = (.ok l, s') ∧ Lit s s' ∧
      (∀ x ∈ l, ∃ b n, some b ∈ cs ∧ Under s0.heap b n x.node ∧ x.depth = d + n) ∧
      (∀ b n a, some b ∈ cs → Under s0.heap b n a → ∃ x ∈ l, x.node = a ∧ x.depth = d + n) ∧
      (∀ x ∈ l, x.Of s0.heap) ∧ (∀ x ∈ l, x.Shows s'.heap) ∧ Listed s0.heap d cs (l.map fun x => (x.node, x.depth)) ∧ l.map (·.node) = (cs.filterMap _root_.id).flatMap N := by
  induction cs with
  | nil => exact fun s hs _ => ⟨[], s, rfl, .refl s, nofun, nofun, nofun, nofun, .nil, rfl⟩
  | cons o cs ih =>
    intro s hs hr
    cases o with
    | none =>
      obtain ⟨l, s', h1, h2, h3, h4, h5, h6, h7, h8⟩ := ih s hs fun b hb => hr b (.tail _ hb)
      refine ⟨l, s', h1, h2, fun x hx => ?_, fun b n a hb hu => ?_, h5, h6, .empty h7, h8⟩
      · obtain ⟨b, n, hb, h⟩ := h3 x hx; exact ⟨b, n, .tail _ hb, h⟩
      · cases hb with
        | tail _ hb => exact h4 b n a hb hu
    | some e =>
      obtain ⟨l1, s1, h1, h2, h3, hN⟩ := hr e (.head _) s hs
      obtain ⟨l2, s2, g1, g2, g3, g4, g5, g6, g7, hM⟩ := ih s1 (hs.trans h2) fun b hb => hr b (.tail _ hb)
      refine ⟨l1 ++ l2, s2, ?_, h2.trans g2, fun x hx => ?_, fun b n a hb hu => ?_, fun x hx => ?_, fun x hx => ?_, by
        rw [List.map_append]; exact h3.order.snoc g7, by
        rw [List.map_append, hN, hM]; rfl⟩
      · simp only [printChildren]
        rw [bind_run, h1]
        simp only
        rw [bind_run, g1]
        rfl
      · rcases List.mem_append.1 hx with hx | hx
        · obtain ⟨n, h⟩ := h3.sound x hx; exact ⟨e, n, .head _, h⟩
        · obtain ⟨b, n, hb, h⟩ := g3 x hx; exact ⟨b, n, .tail _ hb, h⟩
      · cases hb with
        | head => obtain ⟨x, hx, h⟩ := h3.complete n a hu; exact ⟨x, List.mem_append_left _ hx, h⟩
        | tail _ hb => obtain ⟨x, hx, h⟩ := g4 b n a hb hu; exact ⟨x, List.mem_append_right _ hx, h⟩
      · rcases List.mem_append.1 hx with hx | hx
        · exact h3.of x hx
        · exact g5 x hx
      · rcases List.mem_append.1 hx with hx | hx
        · exact (h3.shows x hx).lit g2
        · exact g6 x hx

theorem printNode_lit {s0 : St V} {rk : Rank} (hj : Ranked rk s0.heap) (hf : Firmly s0.heap) (fuel : Nat) : ∀ (a : Addr) (d : Nat) (s : St V),
    rk a < fuel → (∃ c, s0.heap[a]? = some c) → Lit s0 s →
    ∃ l s', printNode fuel a d s = (.ok l, s') ∧ Lit s s' ∧ Printed s0.heap s'.heap a d l ∧ l.map (·.node) = kindred s0.heap fuel a := by
  induction fuel with
  | zero => intro a d s h; omega
  | succ fuel ih =>
    intro a d s hr hc hs
    obtain ⟨c, hc⟩ := hc
    obtain ⟨k0, hk0, -⟩ := hs.cell a c hc
    obtain ⟨k, s1, h1, h2, h3⟩ := getMutateCh_lit hk0
    obtain ⟨lf, s2, g1, g2, g3⟩ := printLeaf_lit hf (hs.trans h2) hc
    obtain ⟨l, s3, e1, e2, e3, e4, e5, e6, e9, e8⟩ := printChildren_lit (s0 := s0) (fun b => printNode fuel b (d + 1)) (kindred s0.heap fuel) (d + 1) c.children s2
      ((hs.trans h2).trans g2) fun b hb s hs => by
        cases c with
        | leaf l => cases hb
        | inner n =>
          have := (hj a _ b hc (.inr hb)).2
          exact ih b (d + 1) s (by omega) ((hf a n hc).2 b hb) hs
    let x : Line := ⟨a, d, c.id, c.kind, c.key, c.part, c.numChildren, c.keys, k, lf⟩
    refine ⟨x :: l, s3, ?_, (h2.trans g2).trans e2, ⟨⟨x, l, rfl, rfl, rfl⟩, ?_, fun y hy => ?_, fun n b hu => ?_, fun y hy => ?_, fun y hy => ?_⟩, by
      rw [List.map_cons, e8]; simp only [kindred, hc]; rfl⟩
    · have h4 : (cell a : M V (Cell V)) s = (.ok (c.setCh k0), s) := by
        show (rd s.heap a, s) = _
        unfold rd
        rw [hk0]
      have e0 : (c.setCh k0).nodeLeaf = c.nodeLeaf := Cell.nodeLeaf_setCh _ _
      have e7 : (c.setCh k0).children = c.children := by cases c <;> rfl
      simp only [printNode]
      rw [bind_run, h4]
      simp only
      rw [bind_run, h1]
      simp only
      rw [e0, bind_run, g1]
      simp only
      rw [e7, bind_run, e1]
      simp only
      cases c <;> rfl
    · rw [List.map_cons]
      cases c with
      | leaf lc =>
        generalize l.map (fun x => (x.node, x.depth)) = l at e9
        cases e9
        exact .leaf hc .nil
      | inner m => have := Listed.inner hc e9 .nil; rw [List.append_nil] at this; exact this
    · rcases List.mem_cons.1 hy with rfl | hy
      · exact ⟨0, .here, rfl⟩
      · obtain ⟨b, n, hb, hu, hd⟩ := e3 y hy
        cases c with
        | leaf l => cases hb
        | inner m => exact ⟨n + 1, hu.cons hc hb, by omega⟩
    · rcases hu.uncons with ⟨rfl, rfl⟩ | ⟨j, n', e, rfl, q1, q2, q3⟩
      · exact ⟨x, .head _, rfl, rfl⟩
      · rw [hc] at q1; cases q1
        obtain ⟨y, hy, q4, q5⟩ := e4 e j b q2 q3
        exact ⟨y, .tail _ hy, q4, by omega⟩
    · rcases List.mem_cons.1 hy with rfl | hy
      · refine ⟨⟨c, hc, rfl, rfl, rfl, rfl, rfl, rfl⟩, fun c' hc' => ?_⟩
        rw [show s0.heap[x.node]? = some c from hc] at hc'; cases hc'
        cases hb : c.nodeLeaf with
        | none => rw [hb] at g3; exact g3
        | some b =>
          rw [hb] at g3
          obtain ⟨l, k, q1, q2, -⟩ := g3
          exact ⟨l, k, q1, q2⟩
      · exact e5 y hy
    · rcases List.mem_cons.1 hy with rfl | hy
      · refine ⟨(g2.trans e2).chanOf h3, fun c' hc' b hb => ?_⟩
        obtain ⟨c1, k1, q1, rfl⟩ := (((hs.trans h2).trans g2).trans e2).back hc'
        rw [show s0.heap[x.node]? = some c from hc] at q1; cases q1
        rw [Cell.nodeLeaf_setCh] at hb
        rw [hb] at g3
        obtain ⟨l, k, -, q2, q3⟩ := g3
        exact ⟨k, by rw [show x.leaf = lf from rfl, q2]; rfl, e2.chanOf q3⟩
      · exact e6 y hy

variable {h : Heap V} {p : Key} {a : Addr} {E : List (Ent V)} {N : List (Key × Addr)}

/-- In a tree that has lost no key, the slots hold nothing but the children. -/
theorem Rep.kindred [Removals] (hr : Rep h p a E N) (hno : ¬ Removals.allowed) : ∀ fuel, N.length ≤ fuel → (kindred h fuel a).Perm (N.map (·.2)) := by
  induction hr with
  | @leaf p a n l lc ha hL hpart hw hleaf hl hp hd =>
    intro fuel hf
    obtain ⟨fuel, rfl⟩ : ∃ k, fuel = k + 1 := ⟨fuel - 1, by simp at hf; omega⟩
    obtain ⟨ds, h1, h2, -⟩ := hL.slotEdges (hL.tidy (by rw [(hw.resolve_left hno).1]; nofun)) (by simp)
    have h3 : ds = [] := h1.eq_nil
    subst h3
    simp only [Art.kindred, ha, Cell.children, h2]
    exact .refl _
  | @node p a n pfx es st vals f g ha hL hne hh hst hown hnd htw hch ih =>
    intro fuel hf
    obtain ⟨fuel, rfl⟩ : ∃ k, fuel = k + 1 := ⟨fuel - 1, by simp at hf; omega⟩
    obtain ⟨ds, h1, h2, -⟩ := hL.slotEdges (htw.resolve_left hno).1 (kids_nodup hL.sorted hch)
    simp only [Art.kindred, ha, Cell.children, h2, List.map_cons]
    refine .cons _ ?_
    rw [List.flatMap_map, List.map_flatMap]
    refine (h1.flatMap_right _).trans ?_
    have : ∀ l : Edges, (∀ d ∈ l, d ∈ es) → (l.flatMap fun d => Art.kindred h fuel d.2).Perm (l.flatMap fun d => (g d.1).map (·.2)) := fun l => by
      induction l with
      | nil => intro; exact .refl _
      | cons d l ihl =>
        intro hl
        rw [List.flatMap_cons, List.flatMap_cons]
        have hde := hl d (by simp)
        refine (ih d.1 d.2 hde fuel ?_).append (ihl fun d hd => hl d (by simp [hd]))
        obtain ⟨u, v, huv⟩ := List.append_of_mem hde
        simp only [List.length_cons, huv, List.flatMap_append, List.flatMap_cons, List.length_append] at hf
        omega
    exact this es fun _ h => h

end Art
