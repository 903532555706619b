import Verif.Proofs.Refine3
import Verif.Proofs.CleanPath
/-
The slots of the nodes of tidy trees, and walks through them.
-/
set_option autoImplicit false
set_option linter.unusedVariables false
set_option linter.unusedSimpArgs false
set_option linter.unusedSectionVars false
namespace Art
variable {V : Type} [Removals] {h : Heap V} {E : List (Ent V)} {N : List (Key × Addr)} {p : Key} {a : Addr} {n : Inner} {es : Edges} {st : Option Addr} {m : Map V}

/-! ### Slots -/

theorem filterMap_some (l : Edges) : (l.map fun e => some e.2).filterMap _root_.id = l.map (·.2) := by
  induction l <;> simp_all

theorem filterMap_nones (k : Nat) : (List.replicate k (none : Option Addr)).filterMap _root_.id = [] := by
  induction k with
  | zero => rfl
  | succ k ih => rw [List.replicate_succ, List.filterMap_cons]; simp

/-- A rearrangement of the image of a list is the image of a rearrangement. -/
theorem perm_map_inv {α β : Type} {f : α → β} {l : List β} : ∀ {xs : List α}, l.Perm (xs.map f) → ∃ ys : List α, ys.Perm xs ∧ ys.map f = l := by
  induction l with
  | nil => intro xs h; exact ⟨[], by simpa using h.length_eq.symm, rfl⟩
  | cons c l ih =>
    intro xs h
    obtain ⟨x, hx, rfl⟩ := List.mem_map.1 (h.subset (show c ∈ c :: l by simp))
    obtain ⟨u, v, rfl⟩ := List.append_of_mem hx
    have h2 : (f x :: l).Perm (f x :: (u ++ v).map f) := h.trans (by simp)
    obtain ⟨ys, h3, h4⟩ := ih (List.perm_cons _ |>.1 h2)
    exact ⟨x :: ys, (h3.cons x).trans List.perm_middle.symm, by rw [List.map_cons, h4]⟩

theorem Layout.tidy_none (hL : Layout n es st) (ht : n.Tidy) : st = none := by
  have harr : ∀ cap, cap ≤ 16 → n.Small → Arr cap n es st → st = none := fun cap hcap hs hb => by
    obtain ⟨-, -, ⟨-, h1, -⟩ | ⟨h1, h2⟩⟩ := hb
    · exact h1
    · have := ht hs es.length (by rw [hL.num]; exact Nat.le_refl _)
      rw [h2, List.getElem?_append_right (by simp)] at this
      simpa using this
  rcases hL.kinds with ⟨hk, hb⟩ | ⟨hk, hb⟩ | ⟨hk, hb, hn⟩ | ⟨hk, hb, hn⟩
  · exact harr 4 (by omega) (by unfold Inner.Small; rw [hk]; simp) hb
  · exact harr 16 (by omega) (by unfold Inner.Small; rw [hk]; simp) hb
  · exact hn
  · exact hn

/-- The non-nil slots of a tidy node are its edges in some order, in the order of the bytes except in a `Node48`. -/
theorem Layout.slotEdges (hL : Layout n es st) (ht : n.Tidy) (hnd : (es.map (·.2)).Nodup) :
    ∃ ds : Edges, ds.Perm es ∧ n.children.filterMap _root_.id = ds.map (·.2) ∧ (n.kind ≠ .n48 → ds = es) := by
  have hst := hL.tidy_none ht
  subst hst
  have harr : ∀ cap, Arr cap n es none → n.children.filterMap _root_.id = es.map (·.2) := fun cap hb => by
    obtain ⟨-, -, ⟨-, -, h2⟩ | ⟨h1, h2⟩⟩ := hb
    · rw [h2, filterMap_some]
    · rw [h2, List.filterMap_append, filterMap_some, List.filterMap_cons]
      simp only [_root_.id]
      rw [filterMap_nones, List.append_nil]
  rcases hL.kinds with ⟨hk, hb⟩ | ⟨hk, hb⟩ | ⟨hk, hb, hn⟩ | ⟨hk, hb, hn⟩
  · exact ⟨es, .refl _, harr 4 hb, fun _ => rfl⟩
  · exact ⟨es, .refl _, harr 16 hb, fun _ => rfl⟩
  · have hmem : ∀ c, some c ∈ n.children ↔ ∃ b, (b, c) ∈ es := fun c =>
      ⟨fun h1 => (hL.slots h1).resolve_right nofun, fun ⟨b, h1⟩ => hL.live_slot h1⟩
    have hperm : (n.children.filterMap _root_.id).Perm (es.map (·.2)) := by
      refine (List.perm_ext_iff_of_nodup ?_ hnd).2 fun c => ?_
      · rw [List.Nodup, List.pairwise_filterMap, List.pairwise_iff_getElem]
        intro i j hi hj hij c hc c' hc' hcc
        subst hcc
        simp only [_root_.id] at hc hc'
        obtain ⟨b, h1, h2⟩ := hb.slot i c (by rw [List.getElem?_eq_getElem hi, hc])
        obtain ⟨b', h3, h4⟩ := hb.slot j c (by rw [List.getElem?_eq_getElem hj, hc'])
        have hbb : b = b' := by
          rw [List.Nodup, List.pairwise_map, List.pairwise_iff_getElem] at hnd
          obtain ⟨x, hx, hxe⟩ := List.getElem_of_mem h1
          obtain ⟨y, hy, hye⟩ := List.getElem_of_mem h3
          rcases Nat.lt_trichotomy x y with h5 | h5 | h5
          · exact absurd (by rw [hxe, hye]) (hnd x y hx hy h5)
          · subst h5; rw [hxe] at hye; exact congrArg (·.1) hye
          · exact absurd (by rw [hxe, hye]) (hnd y x hy hx h5)
        subst hbb
        rw [h2] at h4
        rw [hb.clen] at hi hj
        have h5 := congrArg UInt8.toNat (Option.some.inj h4)
        rw [toNat_ofNat (by omega), toNat_ofNat (by omega)] at h5
        omega
      · rw [List.mem_filterMap, List.mem_map]
        constructor
        · rintro ⟨x, hx, rfl⟩
          obtain ⟨b, hb⟩ := (hmem c).1 hx
          exact ⟨_, hb, rfl⟩
        · rintro ⟨⟨b, c'⟩, hb, rfl⟩
          exact ⟨_, (hmem c').2 ⟨b, hb⟩, rfl⟩
    obtain ⟨ds, h1, h2⟩ := perm_map_inv hperm
    exact ⟨ds, h1, h2.symm, fun h3 => absurd hk h3⟩
  · refine ⟨es, .refl _, ?_, fun _ => rfl⟩
    have := hL.pathChildren
    unfold Inner.pathChildren at this
    rw [hk] at this
    exact this

theorem Rep.top (hr : Rep h p a E N) : (p, a) ∈ N := by cases hr <;> simp

/-- Different edges lead to different children. -/
theorem kids_nodup {P : Key} {f : Byte → List (Ent V)} {g : Byte → List (Key × Addr)} (hs : es.Sorted)
    (hch : ∀ b c, (b, c) ∈ es → Rep h (P ++ [b]) c (f b) (g b)) : (es.map (·.2)).Nodup := by
  rw [List.Nodup, List.pairwise_map]
  refine List.Pairwise.imp_of_mem (R := fun (x y : Byte × Nat) => x.1 < y.1) ?_ hs
  rintro ⟨b, c⟩ ⟨b', c'⟩ hx hy hlt heq
  simp only at heq hlt
  subst heq
  refine Rep.disjoint (hch b c hx) (hch b' c hy) (fun hbb => ?_) (Or.inl (List.mem_map.2 ⟨_, (hch b c hx).top, rfl⟩)) (Or.inl (List.mem_map.2 ⟨_, (hch b' c hy).top, rfl⟩))
  subst hbb
  exact Byte.lt_irrefl hlt

/-! ### Walk -/

/-- The calls, and whether the function returned true. -/
def runCalls (fn : Key → V → Bool) (l : List (Key × V)) : List (Key × V) × Bool := (callsUntil fn l, l.any fun e => fn e.1 e.2)

theorem callsUntil_append (fn : Key → V → Bool) (l l' : List (Key × V)) :
    callsUntil fn (l ++ l') = if l.any (fun e => fn e.1 e.2) then callsUntil fn l else callsUntil fn l ++ callsUntil fn l' := by
  induction l with
  | nil => rfl
  | cons e l ih =>
    rw [List.cons_append, callsUntil, callsUntil, ih, List.any_cons]
    cases fn e.1 e.2 with
    | true => simp
    | false =>
      simp only [Bool.false_eq_true, if_false, Bool.false_or]
      split <;> rfl

theorem walkChildren_eq (rec : Addr → R (List (Key × V) × Bool)) (cs : List (Option Addr)) :
    walkChildren rec cs = walkChildren rec ((cs.filterMap _root_.id).map some) := by
  induction cs with
  | nil => rfl
  | cons c cs ih =>
    cases c with
    | none => rw [walkChildren, ih]; rfl
    | some c => rw [walkChildren, ih]; rfl

/-- The entry as `Walk` shows it: the value is the zero value. -/
def Ent.shown [Inhabited V] (e : Ent V) : Key × V := (getKey e.1, default)

theorem walkChildren_run [Inhabited V] {rec : Addr → R (List (Key × V) × Bool)} {fn : Key → V → Bool} {F : Byte × Addr → List (Ent V)} {ds : Edges}
    (hrec : ∀ d ∈ ds, rec d.2 = .ok (runCalls fn ((F d).map Ent.shown))) :
    walkChildren rec ((ds.map (·.2)).map some) = .ok (runCalls fn ((ds.flatMap F).map Ent.shown)) := by
  induction ds with
  | nil => rfl
  | cons d ds ih =>
    rw [List.map_cons, List.map_cons, walkChildren, hrec d (by simp), Except.bind_ok]
    simp only [runCalls, List.flatMap_cons, List.map_append, callsUntil_append, List.any_append]
    rw [ih fun d hd => hrec d (by simp [hd])]
    by_cases hs : (((F d).map Ent.shown).any fun e => fn e.1 e.2) = true
    · simp only [hs, if_true, Bool.true_or, pure, Except.pure]
    · rw [Bool.not_eq_true] at hs
      simp only [hs, Bool.false_eq_true, if_false, Bool.false_or, Except.bind_ok, runCalls, pure, Except.pure]

/-- The entry is not a proper prefix of another entry of the list. -/
def Last (E : List (Ent V)) (e : Ent V) : Prop := ∀ e' ∈ E, (Ent.out e).1 <+: (Ent.out e').1 → e'.1 = e.1

/-- A walk through a tidy tree visits each entry at most once, and all those that are not a prefix of another one. -/
theorem Rep.walk [Inhabited V] (hr : Rep h p a E N) (hno : ¬ Removals.allowed) : ∃ L : List (Ent V),
    (∀ fn fuel, N.length ≤ fuel → recursiveWalk h fn fuel a = .ok (runCalls fn (L.map Ent.shown))) ∧
    (∃ L', L.Perm L' ∧ L'.Sublist E) ∧
    (∀ e ∈ E, Last E e → e ∈ L) ∧
    ((∀ x ∈ N.map (·.2), ∀ n, h[x]? = some (.inner n) → n.isLeaf = false → n.kind ≠ .n48) → L.Sublist E) := by
  induction hr with
  | @leaf p a n l lc ha hL hpart hw hleaf hl hp hd =>
    refine ⟨[(lc.key, lc.value, l)], fun fn fuel hf => ?_, ⟨_, .refl _, List.Sublist.refl _⟩, fun e he _ => he, fun _ => List.Sublist.refl _⟩
    obtain ⟨fuel, rfl⟩ : ∃ k, fuel = k + 1 := ⟨fuel - 1, by simp at hf; omega⟩
    obtain ⟨ds, h1, h2, -⟩ := hL.slotEdges (hL.tidy (by rw [(hw.resolve_left hno).1]; nofun)) (by simp)
    have h3 : ds = [] := h1.eq_nil
    subst h3
    have hlf : n.isLeaf = true := hL.isLeaf_iff.2 ⟨rfl, by rw [hleaf]; nofun⟩
    rw [recursiveWalk, rd_eq ha, Except.bind_ok]
    simp only [walkOwn, Cell.isLeaf, hlf, Cell.nodeLeaf, hleaf, rdLeaf_eq hl, Except.bind_ok, Cell.children, Cell.value, pure, Except.pure]
    rw [walkChildren_eq, h2]
    simp only [runCalls, List.map_cons, List.map_nil, Ent.shown, callsUntil, List.any_cons, List.any_nil, Bool.or_false, walkChildren, Except.bind_ok]
    cases fn (getKey lc.key) default <;> rfl
  | @node p a n pfx es st vals f g ha hL hne hh hst hown hnd htw hch ih =>
    have hch1 : ∀ e : Byte × Addr, ∃ L : List (Ent V), e ∈ es →
        (∀ fn fuel, (g e.1).length ≤ fuel → recursiveWalk h fn fuel e.2 = .ok (runCalls fn (L.map Ent.shown))) ∧
        (∃ L', L.Perm L' ∧ L'.Sublist (f e.1)) ∧
        (∀ e' ∈ f e.1, Last (f e.1) e' → e' ∈ L) ∧
        ((∀ x ∈ (g e.1).map (·.2), ∀ n, h[x]? = some (.inner n) → n.isLeaf = false → n.kind ≠ .n48) → L.Sublist (f e.1)) := fun e => by
      by_cases he : e ∈ es
      · obtain ⟨L, hL⟩ := ih e.1 e.2 he
        exact ⟨L, fun _ => hL⟩
      · exact ⟨[], fun h => absurd h he⟩
    obtain ⟨F, hF⟩ := Classical.axiomOfChoice hch1
    obtain ⟨ds, h1, h2, h3⟩ := hL.slotEdges (htw.resolve_left hno).1 (kids_nodup hL.sorted hch)
    have hlf : n.isLeaf = false := hL.not_leaf hne
    refine ⟨ds.flatMap F, fun fn fuel hf => ?_, ?_, ?_, ?_⟩
    · obtain ⟨fuel, rfl⟩ : ∃ k, fuel = k + 1 := ⟨fuel - 1, by simp at hf; omega⟩
      rw [recursiveWalk, rd_eq ha, Except.bind_ok]
      simp only [walkOwn, Cell.isLeaf, hlf, Cell.nodeLeaf, Cell.children, pure, Except.pure, Except.bind_ok, Bool.false_eq_true, if_false]
      rw [walkChildren_eq, h2, walkChildren_run (F := F) (fn := fn)]
      · rfl
      · intro d hd
        have hde := h1.subset hd
        refine (hF d hde).1 fn fuel ?_
        obtain ⟨u, v, huv⟩ := List.append_of_mem hde
        simp only [List.length_cons, huv, List.flatMap_append, List.flatMap_cons, List.length_append] at hf
        omega
    · have hG : ∀ d : Byte × Addr, ∃ L', d ∈ es → (F d).Perm L' ∧ L'.Sublist (f d.1) := fun d => by
        by_cases hd : d ∈ es
        · obtain ⟨L', hL'⟩ := (hF d hd).2.1
          exact ⟨L', fun _ => hL'⟩
        · exact ⟨[], fun h => absurd h hd⟩
      obtain ⟨G, hG⟩ := Classical.axiomOfChoice hG
      refine ⟨es.flatMap G, (h1.flatMap_right F).trans ?_, ?_⟩
      · have : ∀ l : Edges, (∀ d ∈ l, d ∈ es) → (l.flatMap F).Perm (l.flatMap G) := fun l => by
          induction l with
          | nil => intro; exact .refl _
          | cons d l ihl =>
            intro hl
            rw [List.flatMap_cons, List.flatMap_cons]
            exact (hG d (hl d (by simp))).1.append (ihl fun d hd => hl d (by simp [hd]))
        exact this es fun _ h => h
      · have : ∀ l : Edges, (∀ d ∈ l, d ∈ es) → (l.flatMap G).Sublist (l.flatMap fun e => f e.1) := fun l => by
          induction l with
          | nil => intro; exact List.Sublist.refl _
          | cons d l ihl =>
            intro hl
            rw [List.flatMap_cons, List.flatMap_cons]
            exact (hG d (hl d (by simp))).2.append (ihl fun d hd => hl d (by simp [hd]))
        exact (this es fun _ h => h).trans (List.sublist_append_right _ _)
    · intro e he hlast
      rcases List.mem_append.1 he with he | he
      · exfalso
        rcases hown.inv with ⟨-, rfl⟩ | ⟨l, lc, ho, rfl, hl, hkey⟩
        · cases he
        · cases List.mem_singleton.1 he
          obtain ⟨⟨b, c⟩, es', rfl⟩ := List.exists_cons_of_ne_nil hne.ne
          have hr := hch b c (by simp)
          obtain ⟨e', l', hcons⟩ := List.exists_cons_of_ne_nil hr.ne_nil
          have he' : e' ∈ f b := by rw [hcons]; simp
          have hp := hr.prefix e' he'
          obtain ⟨k', hk'⟩ := hr.dollar e' he'
          have hbd : b ≠ Art.dollar := fun h => hnd (by rw [ho]; nofun) (by simp [h])
          have h4 : p ++ pfx ++ [b] <+: k' := by
            rw [hk'] at hp
            rcases prefix_dollar.1 hp with h4 | h4
            · exact h4
            · exact absurd (snoc2 h4).2 hbd
          have h5 := hlast e' (List.mem_append_right _ (List.mem_flatMap.2 ⟨_, List.mem_cons_self, he'⟩)) (by
            simp only [Ent.out, hkey, getKey_snoc, hk']
            exact (List.prefix_append _ _).trans h4)
          simp only [hkey, hk'] at h5
          rw [(snoc2 h5).1] at h4
          have h6 := h4.length_le
          rw [List.length_append, List.length_singleton] at h6
          omega
      · obtain ⟨d, hd, he'⟩ := List.mem_flatMap.1 he
        refine List.mem_flatMap.2 ⟨d, h1.symm.subset hd, (hF d hd).2.2.1 e he' fun e1 he1 hp => ?_⟩
        exact hlast e1 (List.mem_append_right _ (List.mem_flatMap.2 ⟨d, hd, he1⟩)) hp
    · intro hk
      have := h3 (hk a (by simp) n ha hlf)
      subst this
      have : ∀ l : Edges, (∀ d ∈ l, d ∈ ds) → (l.flatMap F).Sublist (l.flatMap fun e => f e.1) := fun l => by
        induction l with
        | nil => intro; exact List.Sublist.refl _
        | cons d l ihl =>
          intro hl
          rw [List.flatMap_cons, List.flatMap_cons]
          have hd := hl d (by simp)
          refine ((hF d hd).2.2.2 fun x hx => hk x ?_).append (ihl fun d hd => hl d (by simp [hd]))
          obtain ⟨y, hy, rfl⟩ := List.mem_map.1 hx
          exact List.mem_map.2 ⟨y, List.mem_cons_of_mem _ (List.mem_flatMap.2 ⟨d, hd, hy⟩), rfl⟩
      exact (this ds fun _ h => h).trans (List.sublist_append_right _ _)

/-! ### Narrow maps -/

theorem Map.Narrow.mono {c c' : Nat} (hm : m.Narrow c) (h : c ≤ c') : m.Narrow c' := fun P bs h1 h2 => Nat.le_trans (hm P bs h1 h2) h

/-- A map with at most `c` keys is narrow. -/
theorem Map.Narrow.of_length {c : Nat} (h : m.length ≤ c) : m.Narrow c := fun P bs h1 h2 => by
  have hex : ∀ b : Byte, ∃ k : Key, b ∈ bs → m.has k ∧ P ++ [b] <+: k ++ [36] := fun b => by
    by_cases hb : b ∈ bs
    · obtain ⟨k, hk⟩ := h2 b hb
      exact ⟨k, fun _ => hk⟩
    · exact ⟨[], fun h => absurd h hb⟩
  obtain ⟨K, hK⟩ := Classical.axiomOfChoice hex
  have hnd : (bs.map K).Nodup := by
    rw [List.Nodup, List.pairwise_map]
    refine List.Pairwise.imp_of_mem ?_ h1
    intro b b' hb hb' hne heq
    have h3 := (hK b hb).2
    have h4 := (hK b' hb').2
    rw [heq] at h3
    exact hne (prefix_edge h3 h4)
  have := hnd.length_le_of_subset (l₂ := m.map (·.1)) fun k hk => by
    obtain ⟨b, hb, rfl⟩ := List.mem_map.1 hk
    obtain ⟨v, hv⟩ := (hK b hb).1
    exact List.mem_map.2 ⟨_, hv, rfl⟩
  rw [List.length_map, List.length_map] at this
  omega

/-- The nodes of the tree of a narrow map are small. -/
theorem Rep.narrow (hr : Rep h p a E N) {c : Nat} (hw : ∀ (P : Key) (bs : List Byte), bs.Nodup → (∀ b ∈ bs, ∃ e ∈ E, P ++ [b] <+: e.1) → bs.length ≤ c) :
    ∀ x ∈ N.map (·.2), ∀ n, h[x]? = some (.inner n) → n.isLeaf = false → (n.kind = .n16 → 4 ≤ c) ∧ (n.kind = .n48 → 13 ≤ c) ∧ (n.kind = .n256 → 38 ≤ c) := by
  induction hr with
  | @leaf p a n l lc ha hL hpart hw hleaf hl hp hd =>
    intro x hx n' hn' hlf
    cases List.mem_singleton.1 hx
    rw [ha] at hn'; cases hn'
    rw [hL.isLeaf_iff.2 ⟨rfl, by rw [hleaf]; nofun⟩] at hlf
    cases hlf
  | @node p a n pfx es st vals f g ha hL hne hh hst hown hnd htw hch ih =>
    intro x hx n' hn' hlf
    rw [List.map_cons] at hx
    rcases List.mem_cons.1 hx with rfl | hx
    · rw [ha] at hn'; cases hn'
      have := hw (p ++ pfx) (es.map (·.1)) (by
        rw [List.Nodup, List.pairwise_map]
        exact hL.sorted.imp fun h1 h2 => by rw [h2] at h1; exact Byte.lt_irrefl h1) fun b hb => by
          obtain ⟨⟨b, c⟩, hb', rfl⟩ := List.mem_map.1 hb
          have hr := hch b c hb'
          obtain ⟨e, l, hl⟩ := List.exists_cons_of_ne_nil hr.ne_nil
          have he : e ∈ f b := by rw [hl]; simp
          exact ⟨e, List.mem_append_right _ (List.mem_flatMap.2 ⟨_, hb', he⟩), hr.prefix e he⟩
      rw [List.length_map] at this
      exact ⟨fun h => Nat.le_trans (hne.dense.k16 h) this, fun h => Nat.le_trans (hne.dense.k48 h) this, fun h => Nat.le_trans (hne.dense.k256 h) this⟩
    · obtain ⟨y, hy, rfl⟩ := List.mem_map.1 hx
      obtain ⟨⟨b, c⟩, hb, hy⟩ := List.mem_flatMap.1 hy
      refine ih b c hb (fun P bs h1 h2 => hw P bs h1 fun b' hb' => ?_) y.2 (List.mem_map.2 ⟨y, hy, rfl⟩) n' hn' hlf
      obtain ⟨e, he, h3⟩ := h2 b' hb'
      exact ⟨e, List.mem_append_right _ (List.mem_flatMap.2 ⟨_, hb, he⟩), h3⟩

theorem Abs.narrow {c : Nat} (hr : Rep h p a E N) (ha : Abs E m) (hw : m.Narrow c) (P : Key) (bs : List Byte) (h1 : bs.Nodup)
    (h2 : ∀ b ∈ bs, ∃ e ∈ E, P ++ [b] <+: e.1) : bs.length ≤ c :=
  hw P bs h1 fun b hb => by
    obtain ⟨e, he, h3⟩ := h2 b hb
    obtain ⟨k, hk⟩ := hr.dollar e he
    exact ⟨k, ⟨_, ha.mem he hk⟩, hk ▸ h3⟩

theorem ViewOf.walk {ex : Bool} [Inhabited V] {t : Tree} {full : Bool} (hv : ViewOf ex h t.root t.size full m) (hno : ¬ Removals.allowed) (hne : m ≠ []) : ∃ L : List Key,
    (∀ fn, treeWalk h t fn = .ok (callsUntil fn (L.map fun k => (k, default)))) ∧ L.Nodup ∧ (∀ k ∈ L, m.has k) ∧
    (∀ k, m.has k → (∀ k', m.has k' → k <+: k' → k' = k) → k ∈ L) ∧ (m.Ordered → m.Narrow 12 → L.Pairwise Key.lt) := by
  obtain ⟨E, N, hr, ha⟩ := hv.entries hne
  obtain ⟨L, h1, ⟨L', h2, h3⟩, h4, h5⟩ := hr.walk hno
  have hkey : ∀ (l : List (Ent V)), l.Sublist E → (l.map (·.1)).Nodup := fun l hl => hr.nodup.sublist (hl.map _)
  have hmem : ∀ e ∈ L, e ∈ E := fun e he => h3.subset (h2.subset he)
  refine ⟨L.map fun e => getKey e.1, fun fn => ?_, ?_, ?_, ?_, ?_⟩
  · unfold treeWalk
    rw [h1 fn _ (Nat.le_succ_of_le hr.lengthN), Except.bind_ok, List.map_map]
    rfl
  · rw [List.Nodup, List.pairwise_map]
    have h6 : (L.map (·.1)).Nodup := (h2.map _).nodup_iff.2 (hkey L' h3)
    rw [List.Nodup, List.pairwise_map] at h6
    refine h6.imp_of_mem fun {x y} hx hy hne heq => hne ?_
    obtain ⟨k, hk⟩ := hr.dollar x (hmem x hx)
    obtain ⟨k', hk'⟩ := hr.dollar y (hmem y hy)
    rw [hk, hk', getKey_snoc, getKey_snoc] at heq
    rw [hk, hk', heq]
  · intro k hk
    obtain ⟨e, he, rfl⟩ := List.mem_map.1 hk
    obtain ⟨k, hk⟩ := hr.dollar e (hmem e he)
    rw [hk, getKey_snoc]
    exact ⟨_, ha.mem (hmem e he) hk⟩
  · intro k hk hmax
    obtain ⟨e, he, hek⟩ := ha.has.1 hk
    refine List.mem_map.2 ⟨e, h4 e he fun e' he' hp => ?_, by rw [hek, getKey_snoc]⟩
    obtain ⟨k', hk'⟩ := hr.dollar e' he'
    simp only [Ent.out, hek, hk', getKey_snoc] at hp
    rw [hek, hk', hmax k' ⟨_, ha.mem he' hk'⟩ hp]
  · intro ho hw
    have h6 := h5 fun x hx n hn hlf hk => absurd ((hr.narrow (ha.narrow hr hw) x hx n hn hlf).2.1 hk) (by omega)
    have h7 := (ha.sorted hr ho).sublist (h6.map Ent.out)
    rw [List.pairwise_map] at h7 ⊢
    exact h7

end Art
