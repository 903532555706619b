import Verif.Proofs.DelPrefix
/-
What `deletePrefix` leaves behind: nodes without any leaf (`Dead`), and subtrees with such nodes in them (`Cut`).
Lookups in them.
-/
set_option autoImplicit false
set_option linter.unusedVariables false
set_option linter.unusedSimpArgs false
set_option linter.unusedSectionVars false
namespace Art
variable {V : Type} {s s' s'' : St V} {h h' : Heap V} {E : List (Ent V)} {N : List (Key × Addr)} {p P K pre : Key} {a c : Addr} {n n' : Inner} {es : Edges}
  {st : Option Addr} {Z : Nat} {X S S' : Addr → Prop}

/-- The node `a` and all nodes below it hold no leaf; they lie in `S`. -/
inductive Dead (h : Heap V) (S : Addr → Prop) : Addr → Prop
  | mk {a : Addr} {n : Inner} (ha : h[a]? = some (.inner n)) (hS : S a) (hf : FindOK n) (hpart : n.part.length = 10) (hleaf : n.leaf = none)
      (hch : ∀ c, some c ∈ n.children → Dead h S c) : Dead h S a

/-- The node `a`, reached along `p`, holds exactly the entries `E`; some of its subtrees are dead.  Its inner nodes lie in `S`. -/
inductive Cut (h : Heap V) (S : Addr → Prop) : Key → Addr → List (Ent V) → Prop
  | leaf {p : Key} {a : Addr} {n : Inner} {l : Addr} {lc : LeafC V} (ha : h[a]? = some (.inner n)) (hS : S a) (hL : Layout n [] none) (hpart : n.part.length = 10)
      (hleaf : n.leaf = some l) (hl : h[l]? = some (.leaf lc)) (hp : p <+: lc.key) : Cut h S p a [(lc.key, lc.value, l)]
  | node {p : Key} {a : Addr} {n : Inner} {pfx : Key} {es : Edges} {vals : List (Ent V)} {f : Byte → List (Ent V)} {d : Byte → Bool}
      (ha : h[a]? = some (.inner n)) (hS : S a) (hL : Layout n es none) (hne : es ≠ []) (hh : Header n pfx) (hown : OwnLeaf h (p ++ pfx) n.leaf vals)
      (hnd : n.leaf ≠ none → dollar ∉ es.map (·.1)) (hch : ∀ b c, (b, c) ∈ es → d b = false → Cut h S (p ++ pfx ++ [b]) c (f b))
      (hdead : ∀ b c, (b, c) ∈ es → d b = true → Dead h S c ∧ f b = []) : Cut h S p a (vals ++ es.flatMap fun e => f e.1)

theorem Dead.frame (hd : Dead h S a) (hX : ∀ x, S x → x < h.length → Eqv h h' x) (hS : ∀ x, S x → S' x) : Dead h' S' a := by
  induction hd with
  | mk ha hSa hf hpart hleaf hch ih =>
    obtain ⟨i, k, ha'⟩ := (hX _ hSa (lt_of_get ha)).inner ha
    exact .mk ha' (hS _ hSa) hf hpart hleaf ih

theorem Cut.frame (hd : Cut h S p a E) (hX : ∀ x, S x → x < h.length → Eqv h h' x) (hl : ∀ x lc, h[x]? = some (.leaf lc) → Eqv h h' x) (hS : ∀ x, S x → S' x) :
    Cut h' S' p a E := by
  induction hd with
  | @leaf p a n l lc ha hSa hL hpart hleaf hl' hp =>
    obtain ⟨i, k, ha'⟩ := (hX _ hSa (lt_of_get ha)).inner ha
    obtain ⟨i, k, hl''⟩ := (hl _ _ hl').leaf hl'
    exact Cut.leaf (lc := { lc with id := i, ch := k }) ha' (hS _ hSa) (hL.congr rfl rfl rfl rfl) hpart hleaf hl'' hp
  | @node p a n pfx es vals f d ha hSa hL hne hh hown hnd hch hdead ih =>
    obtain ⟨i, k, ha'⟩ := (hX _ hSa (lt_of_get ha)).inner ha
    refine Cut.node (pfx := pfx) (d := d) ha' (hS _ hSa) (hL.congr rfl rfl rfl rfl) hne (hh.congr rfl rfl) (hown.frame fun x hx => ?_) hnd ih
      fun b c hb hd => ⟨(hdead b c hb hd).1.frame hX hS, (hdead b c hb hd).2⟩
    rcases hown.inv with ⟨-, rfl⟩ | ⟨l, lc, -, rfl, g1, g2⟩
    · cases hx
    · rw [List.mem_singleton.1 hx]; exact hl _ _ g1

/-! ### Lookups -/

theorem Dead.sok (hd : Dead h S a) {Q : Key → Prop} : SOK h Q a := by
  cases hd with
  | mk ha hSa hf hpart hleaf hch => exact ⟨_, ha, fun l hl => by rw [hleaf] at hl; cases hl⟩

theorem Dead.search (hd : Dead h S a) : ∀ fuel d : Nat, K.length < fuel + d → d ≤ K.length → ∃ hit, searchLoopAt h K fuel a d = .ok hit ∧ hit.val = none := by
  induction hd with
  | @mk a n ha hSa hf hpart hleaf hch ih =>
    intro fuel d hfu hK
    obtain ⟨fuel, rfl⟩ : ∃ k, fuel = k + 1 := ⟨fuel - 1, by omega⟩
    have hlf : searchLeaf h a (Cell.inner n : Cell V) K = .ok none := by
      unfold searchLeaf
      split
      · simp only [hleaf]; rfl
      · rfl
    have hstop : ∃ hit, searchStop h a (.inner n) K = .ok hit ∧ hit.val = none := by
      refine ⟨_, searchStop_miss (P := []) (vals := []) (fun e he => nomatch he) (by rw [hleaf]; exact .none) fun c hc => (hch c hc).sok, rfl⟩
    obtain ⟨bail, hbail⟩ := prefixBails_ok (V := V) hpart K d
    unfold searchLoopAt
    simp only [rd_eq ha, Except.bind_ok, hlf]
    simp only [hbail, Except.bind_ok, Cell.partialLen]
    cases bail with
    | true => exact hstop
    | false =>
      simp only [Bool.false_eq_true, if_false]
      by_cases hge : d + n.partialLen ≥ K.length
      · obtain ⟨hit, h1, h2⟩ := hstop
        exact ⟨hit, (if_pos hge).trans h1, h2⟩
      · have hb : byteAt K (d + n.partialLen) = .ok (K[d + n.partialLen]'(by omega)) := by
          unfold byteAt; rw [List.getElem?_eq_getElem (by omega)]
        obtain ⟨o, i, g1, g2⟩ := hf (K[d + n.partialLen]'(by omega))
        cases o with
        | none =>
          obtain ⟨hit, h1, h2⟩ := hstop
          refine ⟨hit, (if_neg hge).trans ?_, h2⟩
          simp only [hb, Except.bind_ok, Cell.findChild, g1]
          exact h1
        | some c =>
          obtain ⟨hit, h1, h2⟩ := ih c (g2 c rfl) fuel (d + n.partialLen + 1) (by omega) (by omega)
          refine ⟨hit, (if_neg hge).trans ?_, h2⟩
          simp only [hb, Except.bind_ok, Cell.findChild, g1]
          exact h1

theorem Cut.prefix (hr : Cut h S p a E) : ∀ e ∈ E, p <+: e.1 := by
  induction hr with
  | leaf ha hSa hL hpart hleaf hl hp =>
    intro e he
    rw [List.mem_singleton.1 he]; exact hp
  | @node p a n pfx es vals f d ha hSa hL hne hh hown hnd hch hdead ih =>
    intro e he
    rcases List.mem_append.1 he with he | he
    · rcases hown.inv with ⟨-, rfl⟩ | ⟨l, lc, -, rfl, hl, hk⟩
      · cases he
      · rw [List.mem_singleton.1 he, hk, List.append_assoc]
        exact List.prefix_append _ _
    · obtain ⟨⟨b, c⟩, hb, he⟩ := List.mem_flatMap.1 he
      cases hd : d b with
      | true => rw [(hdead b c hb hd).2] at he; cases he
      | false =>
        have := ih b c hb hd e he
        rw [List.append_assoc] at this
        exact (List.prefix_append _ _).trans this

/-- The own leaf of the top of a subtree is one of its entries. -/
theorem Cut.sokE (hr : Cut h S p a E) : SOK h (fun k => ∃ e ∈ E, e.1 = k) a := by
  cases hr with
  | leaf ha hSa hL hpart hleaf hl hp =>
    refine ⟨_, ha, fun l' hl' => ?_⟩
    rw [hleaf] at hl'; cases hl'
    exact ⟨_, hl, _, List.mem_singleton.2 rfl, rfl⟩
  | node ha hSa hL hne hh hown hnd hch hdead =>
    refine ⟨_, ha, fun l' hl' => ?_⟩
    rcases hown.inv with ⟨ho, rfl⟩ | ⟨l, lc, ho, rfl, hl, hk⟩
    · rw [ho] at hl'; cases hl'
    · rw [ho] at hl'; cases hl'
      exact ⟨_, hl, _, List.mem_append_left _ (List.mem_singleton.2 rfl), rfl⟩

/-- The answer of a lookup of `K` among the entries. -/
def Answers (K : Key) (E : List (Ent V)) (hit : Hit V) : Prop :=
  (∀ e ∈ E, e.1 = K → hit.val = some e.2.1) ∧ ((∀ e ∈ E, e.1 ≠ K) → hit.val = none)

theorem Answers.stop {hit : Hit V} (hv : hit.val = none) (hne : ∀ e ∈ E, e.1 ≠ K) : Answers K E hit := ⟨fun e he hk => absurd hk (hne e he), fun _ => hv⟩

theorem Cut.search (hr : Cut h S p a E) : ∀ fuel, K.length < fuel + p.length → p.length ≤ K.length →
    ∃ hit, searchLoopAt h K fuel a p.length = .ok hit ∧ Answers K E hit := by
  induction hr with
  | @leaf p a n l lc ha hSa hL hpart hleaf hl hp =>
    intro fuel hf hK
    obtain ⟨fuel, rfl⟩ : ∃ k, fuel = k + 1 := ⟨fuel - 1, by omega⟩
    have hil : n.isLeaf = true := hL.isLeaf_iff.2 ⟨rfl, by rw [hleaf]; simp⟩
    unfold searchLoopAt searchLeaf
    simp only [rd_eq ha, Except.bind_ok, Cell.isLeaf, hil, if_true, hleaf, rdLeaf_eq hl, pure, Except.pure]
    by_cases hm : lc.key = K
    · simp only [leafMatches_iff.2 hm, if_true]
      refine ⟨_, rfl, fun e he hk => ?_, fun hno => absurd hm (hno _ (List.mem_singleton.2 rfl))⟩
      rw [List.mem_singleton.1 he]
    · have hlm : leafMatches lc.key K = false := Bool.eq_false_iff.2 fun h => hm (leafMatches_iff.1 h)
      simp only [hlm, Bool.false_eq_true, if_false]
      have hstop : searchStop h a (.inner n) K = .ok { val := none, watch := a } := by
        have h1 : searchOwn h (Cell.inner n : Cell V) K = .ok none := by
          unfold searchOwn
          simp only [Cell.nodeLeaf, hleaf, rdLeaf_eq hl, Except.bind_ok, hlm]
          rfl
        unfold searchStop
        rw [h1, Except.bind_ok]
        simp only [Cell.children]
        rw [searchChildren_none fun c hc => ?_]
        · rfl
        · rcases hL.slots hc with ⟨b, hb⟩ | hb <;> cases hb
      have hfin : Answers K [(lc.key, lc.value, l)] { val := none, watch := a } := Answers.stop rfl fun e he => by rw [List.mem_singleton.1 he]; exact hm
      obtain ⟨bail, hbail⟩ := prefixBails_ok (V := V) hpart K p.length
      simp only [hbail, Except.bind_ok, hstop, Cell.partialLen]
      cases bail with
      | true => exact ⟨_, rfl, hfin⟩
      | false =>
        simp only [Bool.false_eq_true, if_false]
        by_cases hge : p.length + n.partialLen ≥ K.length
        · rw [if_pos hge]; exact ⟨_, rfl, hfin⟩
        · rw [if_neg hge]
          have hb : byteAt K (p.length + n.partialLen) = .ok (K[p.length + n.partialLen]'(by omega)) := by
            unfold byteAt; rw [List.getElem?_eq_getElem (by omega)]
          simp only [hb, Except.bind_ok, Cell.findChild, hL.find_none (b := K[p.length + n.partialLen]'(by omega)) (by simp)]
          exact ⟨_, rfl, hfin⟩
  | @node p a n pfx es vals f d ha hSa hL hne hh hown hnd hch hdead ih =>
    intro fuel hf hK
    obtain ⟨fuel, rfl⟩ : ∃ k, fuel = k + 1 := ⟨fuel - 1, by omega⟩
    have hnl : n.isLeaf = false := Bool.eq_false_iff.2 fun hl => hne (hL.isLeaf_iff.1 hl).1
    unfold searchLoopAt searchLeaf
    simp only [rd_eq ha, Except.bind_ok, Cell.isLeaf, hnl, Bool.false_eq_true, if_false, pure, Except.pure]
    have hstop : (∀ e ∈ vals ++ es.flatMap (fun e => f e.1), e.1 ≠ K) → searchStop h a (.inner n) K = .ok { val := none, watch := a } := fun h1 => by
      refine searchStop_miss (fun e he => h1 e (by simp [he])) hown fun c hc => ?_
      rcases hL.slots hc with ⟨b, hb⟩ | hb
      · cases hd : d b with
        | true => exact (hdead b c hb hd).1.sok
        | false => exact (hch b c hb hd).sokE.mono fun k ⟨e, he, hk⟩ => hk ▸ h1 e (List.mem_append_right _ (List.mem_flatMap.2 ⟨_, hb, he⟩))
      · cases hb
    have hkeys : ∀ e ∈ vals ++ es.flatMap (fun e => f e.1), e.1 = p ++ pfx ++ [dollar] ∧ e ∈ vals ∨ ∃ b c, (b, c) ∈ es ∧ e ∈ f b ∧ p ++ pfx ++ [b] <+: e.1 := fun e he => by
      rcases List.mem_append.1 he with he | he
      · rcases hown.inv with ⟨-, rfl⟩ | ⟨l, lc, -, rfl, hl, hk⟩
        · cases he
        · refine Or.inl ⟨?_, he⟩
          rw [List.mem_singleton.1 he]; exact hk
      · obtain ⟨⟨b, c⟩, hb, he⟩ := List.mem_flatMap.1 he
        cases hd : d b with
        | true => rw [(hdead b c hb hd).2] at he; cases he
        | false => exact Or.inr ⟨b, c, hb, he, (hch b c hb hd).prefix e he⟩
    have hlong : ∀ e ∈ vals ++ es.flatMap (fun e => f e.1), ∃ x, p ++ pfx ++ [x] <+: e.1 := fun e he => by
      rcases hkeys e he with ⟨h1, -⟩ | ⟨b, c, -, -, h1⟩
      · exact ⟨_, by rw [h1]; exact List.prefix_refl _⟩
      · exact ⟨b, h1⟩
    obtain ⟨bail, hbail, hbi⟩ := prefixBails_eq (V := V) hh K p.length
    simp only [hbail, Except.bind_ok, Cell.partialLen, hh.len]
    cases bail with
    | true =>
      simp only [if_true]
      have hP : ¬ p ++ pfx <+: K := fun hpre => by
        refine absurd (hbi.2 fun t ht => ?_) (by simp)
        obtain ⟨tl, rfl⟩ := hpre
        rw [List.append_assoc, List.drop_left, List.getElem?_append_left (by omega)]
      have hno : ∀ e ∈ vals ++ es.flatMap (fun e => f e.1), e.1 ≠ K := fun e he hk => by
        obtain ⟨x, hx⟩ := hlong e he
        exact hP (hk ▸ (List.prefix_append _ _).trans hx)
      exact ⟨_, hstop hno, Answers.stop rfl hno⟩
    | false =>
      simp only [Bool.false_eq_true, if_false]
      by_cases hge : p.length + pfx.length ≥ K.length
      · rw [if_pos hge]
        have hno : ∀ e ∈ vals ++ es.flatMap (fun e => f e.1), e.1 ≠ K := fun e he hk => by
          obtain ⟨x, hx⟩ := hlong e he
          have := hx.length_le
          rw [hk] at this
          simp at this
          omega
        exact ⟨_, hstop hno, Answers.stop rfl hno⟩
      · rw [if_neg hge]
        have hlt : p.length + pfx.length < K.length := by omega
        have hb : byteAt K (p.length + pfx.length) = .ok (K[p.length + pfx.length]) := by
          unfold byteAt; rw [List.getElem?_eq_getElem hlt]
        simp only [hb, Except.bind_ok, Cell.findChild]
        generalize hbb : K[p.length + pfx.length] = b
        have hedge : ∀ b', p ++ pfx ++ [b'] <+: K → b' = b := fun b' hb' => by
          obtain ⟨tl, rfl⟩ := hb'
          rw [← hbb]
          simp [List.getElem_append]
        rcases hL.findChild_iff b with ⟨hbn, hfc⟩ | ⟨l, c, r, i, rfl, hfc, -⟩
        · simp only [hfc, Except.bind_ok]
          by_cases hown' : ∃ e ∈ vals, e.1 = K
          · obtain ⟨e, he, hk⟩ := hown'
            rcases hown.inv with ⟨ho, rfl⟩ | ⟨l, lc, ho, rfl, hl, hlk⟩
            · cases he
            · rw [List.mem_singleton.1 he] at hk
              refine ⟨_, searchStop_own ho hl hk, fun e' he' hk' => ?_, fun hno => absurd hk (hno _ (List.mem_append_left _ (List.mem_singleton.2 rfl)))⟩
              rcases hkeys e' he' with ⟨-, h2⟩ | ⟨b', c', hb', -, h2⟩
              · rw [List.mem_singleton.1 h2]
              · rw [hk'] at h2
                exact absurd (List.mem_map.2 ⟨_, hb', hedge b' h2⟩) hbn
          · have hno : ∀ e ∈ vals ++ es.flatMap (fun e => f e.1), e.1 ≠ K := fun e he hk => by
              rcases hkeys e he with ⟨-, h2⟩ | ⟨b', c', hb', -, h2⟩
              · exact hown' ⟨e, h2, hk⟩
              · rw [hk] at h2
                exact hbn (List.mem_map.2 ⟨_, hb', hedge b' h2⟩)
            exact ⟨_, hstop hno, Answers.stop rfl hno⟩
        · simp only [hfc, Except.bind_ok]
          have hbm : (b, c) ∈ l ++ (b, c) :: r := by simp
          have hlen : (p ++ pfx ++ [b]).length = p.length + pfx.length + 1 := by simp [Nat.add_assoc]
          have hkid : ∃ hit, searchLoopAt h K fuel c (p.length + pfx.length + 1) = .ok hit ∧ Answers K (f b) hit := by
            cases hd : d b with
            | true =>
              obtain ⟨g1, g2⟩ := hdead b c hbm hd
              obtain ⟨hit, g3, g4⟩ := g1.search (K := K) fuel (p.length + pfx.length + 1) (by omega) (by omega)
              exact ⟨hit, g3, Answers.stop g4 (by rw [g2]; exact fun e he => nomatch he)⟩
            | false =>
              obtain ⟨hit, g1, g2⟩ := ih b c hbm hd fuel (by rw [hlen]; omega) (by rw [hlen]; omega)
              exact ⟨hit, by rw [← hlen]; exact g1, g2⟩
          obtain ⟨hit, g1, g2, g3⟩ := hkid
          refine ⟨hit, g1, fun e he hk => ?_, fun hno => g3 fun e he => hno e (List.mem_append_right _ (List.mem_flatMap.2 ⟨_, hbm, he⟩))⟩
          rcases hkeys e he with ⟨h1, h2⟩ | ⟨b', c', hb', he', h2⟩
          · have h3 : Art.dollar = b := hedge _ (by rw [← hk, h1]; exact List.prefix_refl _)
            rcases hown.inv with ⟨ho, rfl⟩ | ⟨l', lc, ho, rfl, hl, hlk⟩
            · cases h2
            · exact absurd (List.mem_map.2 ⟨_, hbm, h3.symm⟩) (hnd (by rw [ho]; simp))
          · have := hedge b' (by rw [← hk]; exact h2)
            subst this
            exact g2 e he' hk

end Art
