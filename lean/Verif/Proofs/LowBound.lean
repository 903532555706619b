import Verif.Proofs.RevBound
import Verif.Proofs.CleanIter
/-
`SeekLowerBound` and the iteration from there, on a well-formed tree from which nothing was removed.
-/
set_option autoImplicit false
set_option linter.unusedVariables false
set_option linter.unusedSimpArgs false
set_option linter.unusedSectionVars false
namespace Art
variable {V : Type} [Removals] {h : Heap V} {E : List (Ent V)} {N : List (Key × Addr)} {p q Q : Key} {a : Addr} {n : Inner} {es : Edges} {st : Option Addr} {m : Map V}
  {pv vals : List (Ent V)} {parent : Option Addr} {P : Key} {f : Byte → List (Ent V)} {g : Byte → List (Key × Addr)} {stk : List (Option Addr)}

/-- The entries whose tree key is not below `Q`. -/
def Ent.notBelow (Q : Key) (F : List (Ent V)) : List (Ent V) := F.filter fun e => geBytes e.1 Q

theorem notBelow_all {F : List (Ent V)} (hF : ∀ e ∈ F, geBytes e.1 Q = true) : Ent.notBelow Q F = F := List.filter_eq_self.2 hF
theorem notBelow_none {F : List (Ent V)} (hF : ∀ e ∈ F, geBytes e.1 Q = false) : Ent.notBelow Q F = [] :=
  List.filter_eq_nil_iff.2 fun e he => by rw [hF e he]; simp
theorem notBelow_append (F G : List (Ent V)) : Ent.notBelow Q (F ++ G) = Ent.notBelow Q F ++ Ent.notBelow Q G := by simp [Ent.notBelow]

theorem lb_leaf {lc : LeafC V} {l : Addr} (hl : h[l]? = some (.leaf lc)) {r : List (Key × V)} (hg : (lbM h).Gives stk r) :
    (lbM h).Gives (some l :: stk) (Ent.out (lc.key, lc.value, l) :: r) := by
  refine (lbM h).gives_yield (s' := stk) (fun F => ?_) hg
  simp only [lbM_next]
  rw [lbNext]
  simp only [rd_eq hl, Except.bind_ok]
  rfl

theorem lb_kids : ∀ {ds : Edges}, (∀ b c, (b, c) ∈ ds → Rep h (P ++ [b]) c (f b) (g b)) → ∀ {r : List (Key × V)}, (lbM h).Gives stk r →
    (lbM h).Gives (ds.map (fun e => some e.2) ++ stk) ((ds.flatMap fun e => f e.1).map Ent.out ++ r)
  | [], _, r, hg => by simpa using hg
  | (b, c) :: ds, hch, r, hg => by
    have h1 := lb_kids (ds := ds) (fun b c hb => hch b c (by simp [hb])) hg
    have := (hch b c (by simp)).lb _ _ h1
    simpa [List.flatMap_cons, List.map_append, List.append_assoc] using this

/-- The node above, with its own leaf. -/
def Above (h : Heap V) (parent : Option Addr) (P : Key) (pv : List (Ent V)) : Prop :=
  (parent = none ∧ pv = []) ∨ ∃ x n, parent = some x ∧ h[x]? = some (.inner n) ∧ OwnLeaf h P n.leaf pv

/-- The stack `res` returns the selected entries of the parent's leaf and of the subtree, then those of `stk`. -/
def LbOK (h : Heap V) (Q : Key) (F : List (Ent V)) (stk : List (Option Addr)) (res : R (List (Option Addr))) : Prop :=
  ∃ stk', res = .ok stk' ∧ ∀ r, (lbM h).Gives stk r → (lbM h).Gives stk' ((Ent.notBelow Q F).map Ent.out ++ r)

theorem LbOK.stay {F : List (Ent V)} (hF : ∀ e ∈ F, geBytes e.1 Q = false) : LbOK h Q F stk (.ok stk) :=
  ⟨_, rfl, fun r hg => by rw [notBelow_none hF]; exact hg⟩

theorem Above.push (hA : Above h parent P pv) : LbOK h Q pv stk (lbPushParent h Q parent stk) := by
  rcases hA with ⟨rfl, rfl⟩ | ⟨x, n, rfl, hx, ho⟩
  · exact ⟨_, rfl, fun r hg => hg⟩
  · unfold lbPushParent
    simp only [rd_eq hx, Except.bind_ok, Cell.nodeLeaf]
    rcases ho.inv with ⟨hn, rfl⟩ | ⟨l, lc, hn, rfl, hl, hk⟩
    · rw [hn]; exact ⟨_, rfl, fun r hg => hg⟩
    · rw [hn]
      simp only [rdLeaf_eq hl, Except.bind_ok]
      refine ⟨_, rfl, fun r hg => ?_⟩
      cases hge : geBytes lc.key Q with
      | true => simp only [Ent.notBelow, List.filter_cons, hge, if_true, List.filter_nil, List.map_cons, List.map_nil]; exact lb_leaf hl hg
      | false => simpa [Ent.notBelow, hge] using hg

theorem LbOK.then {F : List (Ent V)} {stk1 : List (Option Addr)} (hA : Above h parent P pv)
    (h1 : ∀ r, (lbM h).Gives stk r → (lbM h).Gives stk1 ((Ent.notBelow Q F).map Ent.out ++ r)) : LbOK h Q (pv ++ F) stk (lbPushParent h Q parent stk1) := by
  obtain ⟨stk', e1, e2⟩ := hA.push (Q := Q) (stk := stk1)
  refine ⟨stk', e1, fun r hg => ?_⟩
  have := e2 _ (h1 r hg)
  rw [notBelow_append, List.map_append, List.append_assoc]
  exact this

theorem OwnLeaf.leafKey (ha : h[a]? = Option.some (.inner n)) (ho : OwnLeaf h P n.leaf vals) : nodeLeafKey h a = .ok (vals.head?.map (·.1)) := by
  unfold nodeLeafKey
  simp only [rd_eq ha, Except.bind_ok, Cell.nodeLeaf]
  rcases ho.inv with ⟨hn, rfl⟩ | ⟨l, lc, hn, rfl, hl, hk⟩
  · rw [hn]; rfl
  · rw [hn]; simp only [rdLeaf_eq hl]; rfl

/-- The key of the top leaf of a subtree belongs to an entry. -/
theorem Rep.leafKey (hr : Rep h p a E N) : ∃ lk, nodeLeafKey h a = .ok lk ∧ ∀ k, lk = some k → ∃ e ∈ E, e.1 = k := by
  cases hr with
  | @leaf _ _ n l lc ha hL hpart hw hleaf hl hp hd =>
    refine ⟨some lc.key, ?_, fun k hk => ⟨_, List.mem_singleton.2 rfl, by injection hk⟩⟩
    unfold nodeLeafKey; simp only [rd_eq ha, Except.bind_ok, Cell.nodeLeaf, hleaf, rdLeaf_eq hl]; rfl
  | @node _ _ n pfx es st vals f g ha hL hne hh hst hown hnd htw hch =>
    refine ⟨_, hown.leafKey ha, fun k hk => ?_⟩
    cases vals with
    | nil => cases hk
    | cons e vals => exact ⟨e, by simp, by simpa using hk⟩

theorem lbPush_all (hr : Rep h p a E N) (hE : ∀ e ∈ E, geBytes e.1 Q = true) : lbPush h Q a stk = .ok (some a :: stk) := by
  obtain ⟨lk, h1, h2⟩ := hr.leafKey
  unfold lbPush
  simp only [h1, Except.bind_ok]
  cases lk with
  | none => rfl
  | some k =>
    obtain ⟨e, he, rfl⟩ := h2 k rfl
    simp only [hE e he, if_true]; rfl

theorem lbPushBoth_all (hr : Rep h p a E N) (hA : Above h parent P pv) (hE : ∀ e ∈ E, geBytes e.1 Q = true) : LbOK h Q (pv ++ E) stk (lbPushBoth h Q a parent stk) := by
  unfold lbPushBoth
  rw [lbPush_all hr hE]
  exact LbOK.then hA fun r hg => by rw [notBelow_all hE]; exact hr.lb _ _ hg

theorem lbPushChildren_all (hL : Layout n es st) (hk : n.kind = .n4 ∨ n.kind = .n16) {lo : Nat} {strict : Bool}
    (hch : ∀ b c, (b, c) ∈ es → Rep h (P ++ [b]) c (f b) (g b)) (hE : ∀ d ∈ es.drop lo, ∀ e ∈ f d.1, geBytes e.1 Q = true) :
    ∀ {k : Nat} {stk : List (Option Addr)}, k ≤ es.length → lbPushChildren h Q (.inner n) lo strict k stk = .ok (((es.take k).drop lo).map (fun e => some e.2) ++ stk)
  | 0, stk, _ => by rw [lbPushChildren]; simp
  | k + 1, stk, hle => by
    rw [lbPushChildren]
    by_cases hlo : k < lo
    · rw [if_pos hlo, List.drop_eq_nil_of_le (by rw [List.length_take]; omega)]; rfl
    · rw [if_neg hlo]
      have hb : es[k] ∈ es.drop lo := by
        rw [List.mem_iff_getElem]
        exact ⟨k - lo, by rw [List.length_drop]; omega, by rw [List.getElem_drop]; congr 1; omega⟩
      have h1 := lbPush_all (stk := stk) (hch es[k].1 es[k].2 (List.getElem_mem _)) (hE _ hb)
      simp only [Cell.getChild, (hL.child_at hk (i := k) (by omega)).1, Except.bind_ok, h1]
      rw [lbPushChildren_all hL hk hch hE (by omega), List.take_succ_eq_append_getElem (show k < es.length by omega),
        List.drop_append_of_le_length (by rw [List.length_take]; omega), List.map_append, List.append_assoc]
      rfl

theorem le_ite {c : Prop} [Decidable c] {l x y : Nat} (h1 : l ≤ x) (h2 : l ≤ y) : l ≤ if c then x else y := by split <;> assumption
theorem ite_le {c : Prop} [Decidable c] {u x y : Nat} (h1 : x ≤ u) (h2 : y ≤ u) : (if c then x else y) ≤ u := by split <;> assumption

theorem lbCmp_inner {d : Nat} (hl : n.isLeaf = false) (hp : n.part.length = 10) (hw : n.partialLen ≤ 10) (hd : d ≤ Q.length) :
    lbCmp (.inner n : Cell V) Q d = .ok (cmpBytes (n.part.take n.partialLen)
      ((Q.drop d).take ((if n.partialLen < Q.length then min Q.length (d + n.partialLen) else Q.length) - d))) := by
  have h1 : lbCmp (.inner n : Cell V) Q d = (goSlice n.part 0 n.partialLen).bind fun part =>
      (goSlice Q d (if n.partialLen < Q.length then min Q.length (d + n.partialLen) else Q.length)).bind fun q => .ok (cmpBytes part q) := by
    unfold lbCmp; rw [if_neg (by simp [Cell.isLeaf, hl])]; rfl
  rw [h1, goSlice_ok (Nat.zero_le _) (by omega), Except.bind, goSlice_ok (le_ite (by omega) (by omega)) (ite_le (by omega) (by omega)), Except.bind]
  rfl

theorem lbCmp_leaf {d : Nat} (hl : n.isLeaf = true) : lbCmp (.inner n : Cell V) Q d = .ok .eq := by
  unfold lbCmp; rw [if_pos (by simp [Cell.isLeaf, hl])]

/-- A node without prefix equals the bound so far. -/
theorem lbCmp_empty {d : Nat} (hl : n.isLeaf = false) (hp : n.part.length = 10) (hw : n.partialLen = 0) (hd : d ≤ Q.length) (hpos : 0 < Q.length) :
    lbCmp (.inner n : Cell V) Q d = .ok .eq := by
  rw [lbCmp_inner hl hp (by omega) hd, hw, if_pos hpos]
  have : min Q.length (d + 0) - d = 0 := by omega
  rw [this]
  rfl

/-- At the end of the bound no prefix is smaller. -/
theorem lbCmp_end (hl : n.isLeaf = false) (hp : n.part.length = 10) (hw : n.partialLen ≤ 10) :
    lbCmp (.inner n : Cell V) Q Q.length = .ok .gt ∨ (lbCmp (.inner n : Cell V) Q Q.length = .ok .eq ∧ n.partialLen = 0) := by
  rw [lbCmp_inner hl hp hw (Nat.le_refl _), List.drop_length, List.take_nil]
  have hlen : (n.part.take n.partialLen).length = n.partialLen := by rw [List.length_take]; omega
  cases hx : List.take n.partialLen n.part with
  | nil => rw [hx] at hlen; exact Or.inr ⟨rfl, hlen.symm⟩
  | cons x xs => exact Or.inl rfl

/-- The prefixes are stored in full. -/
def Stored (h : Heap V) (N : List (Key × Addr)) : Prop := ∀ x ∈ N.map (·.2), ∀ n, h[x]? = some (.inner n) → n.partialLen ≤ 10

/-- After a mismatch everything below is above the bound. -/
theorem Rep.lbAfter (hr : Rep h p a E N) : Slim h N → Stored h N → (∀ e ∈ E, geBytes e.1 Q = true) → ∀ (fuel : Nat) (stk : List (Option Addr)) (parent : Option Addr) (P : Key) (pv : List (Ent V)),
    p.length ≤ Q.length → Q.length + 1 ≤ fuel + p.length → Above h parent P pv → parent ≠ none →
    LbOK h Q (pv ++ E) stk (lbLoop h Q fuel (some a) parent p.length true stk) := by
  induction hr with
  | @leaf p a n l lc ha hL hpart hw hleaf hl hp hd =>
    intro hsl hst hE fuel stk parent P pv hpl hfu hA hpa
    have hrep := Rep.leaf ha hL hpart hw hleaf hl hp hd
    obtain ⟨fuel, rfl⟩ : ∃ k, fuel = k + 1 := ⟨fuel - 1, by omega⟩
    have hil : n.isLeaf = true := hL.isLeaf_iff.2 ⟨rfl, by rw [hleaf]; nofun⟩
    have hlk : nodeLeafKey h a = .ok (some lc.key) := by
      unfold nodeLeafKey; simp only [rd_eq ha, Except.bind_ok, Cell.nodeLeaf, hleaf, rdLeaf_eq hl]; rfl
    have hge : geBytes lc.key Q = true := hE _ (List.mem_singleton.2 rfl)
    rw [lbLoop]
    simp only [rd_eq ha, Except.bind_ok, lbCmp, Cell.isLeaf, hil, if_true, hlk, Option.any_some, hge]
    exact lbPushBoth_all hrep hA hE
  | @node p a n pfx es st vals f g ha hL hne hh hst hown hnd htw hch ih =>
    intro hsl hst' hE fuel stk parent P pv hpl hfu hA hpa
    have hrep := Rep.node ha hL hne hh hst hown hnd htw hch
    obtain ⟨fuel, rfl⟩ : ∃ k, fuel = k + 1 := ⟨fuel - 1, by omega⟩
    have hlf := hL.not_leaf hne.ne
    have hkind := hsl a (by simp) n ha hlf
    have hp10 := hst' a (by simp) n ha
    have hboth := lbPushBoth_all (stk := stk) hrep hA hE
    have ho := lbCmp_inner (V := V) (Q := Q) (d := p.length) hlf hh.part hp10 hpl
    have hlk := hown.leafKey ha
    obtain ⟨j, hj, -⟩ := prefixMismatch_short (h := h) (Q := Q) (d := p.length) ha hh.part hp10
    have hpos : 0 < es.length := List.length_pos_iff.2 hne.ne
    have hEk : ∀ d ∈ es, ∀ e ∈ f d.1, geBytes e.1 Q = true := fun d hd e he => hE e (List.mem_append_right _ (List.mem_flatMap.2 ⟨_, hd, he⟩))
    have hkids : lbPushChildren h Q (.inner n) 0 true n.numChildren.toNat stk = .ok (es.map (fun e => some e.2) ++ stk) := by
      rw [hL.num, lbPushChildren_all hL hkind hch (by simpa using hEk) (Nat.le_refl _)]; simp
    have hkids' : lbPushChildren h Q (.inner n) 0 false n.numChildren.toNat stk = .ok (es.map (fun e => some e.2) ++ stk) := by
      rw [hL.num, lbPushChildren_all hL hkind hch (by simpa using hEk) (Nat.le_refl _)]; simp
    have hown' : (vals = [] ∧ n.leaf = none) ∨ ∃ e, vals = [e] ∧ geBytes e.1 Q = true := by
      rcases hown.inv with ⟨hn, rfl⟩ | ⟨l, lc, hn, rfl, hl, hk⟩
      · exact Or.inl ⟨rfl, hn⟩
      · exact Or.inr ⟨_, rfl, hE _ (by simp)⟩
    rw [lbLoop]
    simp only [rd_eq ha, Except.bind_ok, ho, Cell.isLeaf, hlf, Bool.not_true, Bool.false_eq_true, and_false, false_and, if_false, hlk, lbSkip, hj, pure, Except.pure, Bool.true_or]
    split
    · exact hboth
    rename_i hge
    rw [ge_iff_le, Nat.not_le, hh.len] at hge
    simp only [byteAt, hh.len, List.getElem?_eq_getElem hge, Except.bind_ok, Cell.getLowerBoundCh]
    obtain ⟨l, r, h1, h2, h3⟩ := hL.sorted.split Q[p.length + pfx.length]
    rw [hL.lower hkind h1 h2 h3]
    simp only [Except.bind_ok]
    generalize cmpBytes _ _ = o at ho
    have hall : ∀ stk1, (∀ r, (lbM h).Gives stk r → (lbM h).Gives stk1 ((vals ++ es.flatMap fun e => f e.1).map Ent.out ++ r)) →
        LbOK h Q (pv ++ (vals ++ es.flatMap fun e => f e.1)) stk (lbPushParent h Q parent stk1) := fun stk1 h1 =>
      LbOK.then hA fun r hg => by rw [notBelow_all hE]; exact h1 r hg
    have hpush : ∀ r, (lbM h).Gives stk r → (lbM h).Gives (some a :: stk) ((vals ++ es.flatMap fun e => f e.1).map Ent.out ++ r) := fun r hg => hrep.lb _ _ hg
    by_cases hr0 : r = []
    · -- no child
      simp only [hr0, if_true]
      unfold lbNoChild
      obtain ⟨x, rfl⟩ : ∃ x, parent = some x := by
        cases parent with
        | none => exact absurd rfl hpa
        | some x => exact ⟨x, rfl⟩
      rcases hown' with ⟨rfl, -⟩ | ⟨e, rfl, hge'⟩
      · simp only [List.head?_nil, Option.map_none, Cell.numChildren, hkids, Except.bind_ok]
        exact hall _ fun r hg => by simpa using lb_kids hch hg
      · simp only [List.head?_cons, Option.map_some, hge', if_true, Except.bind_ok]
        exact hall _ hpush
    · -- the parent
      have hi : ¬ ((if r = [] then -1 else (l.length : Int)) = -1) := by rw [if_neg hr0]; omega
      simp only [if_neg hi]
      have hpk : ∃ pk, parentLeafKey h parent = .ok pk ∧ (pk = none → pv = []) := by
        rcases hA with ⟨rfl, rfl⟩ | ⟨x, n', rfl, hx, ho'⟩
        · exact ⟨none, rfl, fun _ => rfl⟩
        · refine ⟨_, ho'.leafKey hx, fun h => ?_⟩
          cases pv with
          | nil => rfl
          | cons e pv => cases h
      obtain ⟨pk, hpk, hpv⟩ := hpk
      simp only [hpk, Except.bind_ok]
      split
      · unfold lbTakeAll
        rcases hown' with ⟨rfl, -⟩ | ⟨e, rfl, hge'⟩
        · simp only [List.head?_nil, Option.map_none, Option.any_none, Bool.false_eq_true, if_false, Cell.numChildren, hkids', Except.bind_ok]
          exact hall _ fun r hg => by simpa using lb_kids hch hg
        · simp only [List.head?_cons, Option.map_some, Option.any_some, hge', if_true, Except.bind_ok]
          exact hall _ hpush
      · rename_i hns
        have : pk = none := by
          cases pk with
          | none => rfl
          | some k => exact absurd (by simp) hns
        rw [hpv this, List.nil_append]
        have hrest : lbPushChildren h Q (.inner n) (0 + 1) false n.numChildren.toNat stk = .ok ((es.drop 1).map (fun e => some e.2) ++ stk) := by
          rw [hL.num, lbPushChildren_all hL hkind hch (fun d hd => hEk d (List.mem_of_mem_drop hd)) (Nat.le_refl _), List.take_length]
        simp only [if_true, Cell.numChildren, hrest, Except.bind_ok, Cell.getKeyAtIdx, Cell.getChild, (hL.child_at hkind hpos).1, (hL.child_at hkind hpos).2]
        obtain ⟨⟨b, c⟩, hbc⟩ : ∃ d, es[0] = d := ⟨_, rfl⟩
        have hmem : (b, c) ∈ es := by rw [← hbc]; exact List.getElem_mem _
        have hsplit : es = (b, c) :: es.drop 1 := by rw [← hbc, ← List.drop_eq_getElem_cons hpos]; rfl
        simp only [hbc]
        have hlen : (p ++ pfx ++ [b]).length = p.length + pfx.length + 1 := by simp only [List.length_append, List.length_singleton]
        obtain ⟨stk', e1, e2⟩ := ih b c hmem (fun x hx => hsl x (by
            obtain ⟨y, hy, rfl⟩ := List.mem_map.1 hx
            exact List.mem_map.2 ⟨y, List.mem_cons_of_mem _ (List.mem_flatMap.2 ⟨_, hmem, hy⟩), rfl⟩))
          (fun x hx => hst' x (by
            obtain ⟨y, hy, rfl⟩ := List.mem_map.1 hx
            exact List.mem_map.2 ⟨y, List.mem_cons_of_mem _ (List.mem_flatMap.2 ⟨_, hmem, hy⟩), rfl⟩))
          (hEk _ hmem) fuel ((es.drop 1).map (fun e => some e.2) ++ stk) (some a) (p ++ pfx) vals (by omega) (by omega) (Or.inr ⟨a, n, rfl, ha, hown⟩) nofun
        rw [hlen] at e1
        refine ⟨stk', e1, fun r hg => ?_⟩
        have := e2 _ (lb_kids (ds := es.drop 1) (fun b c hb => hch b c (List.mem_of_mem_drop hb)) hg)
        rw [notBelow_all (fun e he => by
          rcases List.mem_append.1 he with he | he
          · exact hE e (by simp [he])
          · exact hEk _ hmem e he)] at this
        rw [notBelow_all hE]
        have h5 : (es.flatMap fun e => f e.1) = f b ++ (es.drop 1).flatMap fun e => f e.1 := by
          conv => lhs; rw [hsplit, List.flatMap_cons]
        rw [h5]
        simpa [List.append_assoc] using this

/-! ### Lexical facts -/

theorem Before.lt {K K' : Key} (hb : Before K K') : Key.lt K K' := by
  obtain ⟨q, b, b', hlt, ⟨s, rfl⟩, ⟨t, rfl⟩⟩ := hb
  induction q with
  | nil => exact Or.inl hlt
  | cons x q ih => exact Or.inr ⟨rfl, ih⟩

theorem Before.below {K : Key} (hb : Before K Q) : geBytes K Q = false := geBytes_false.2 hb.lt
theorem Before.notBelow {K : Key} (hb : Before Q K) : geBytes K Q = true := by
  have := cmpBytes_gt.2 hb.lt
  simp [geBytes, this]

theorem geBytes_prefix {K : Key} (hp : Q <+: K) : geBytes K Q = true := by
  cases hc : geBytes K Q with
  | true => rfl
  | false =>
    exfalso
    have := geBytes_false.1 hc
    obtain ⟨t, rfl⟩ := hp
    cases t with
    | nil => rw [List.append_nil] at this; exact key_lt_irrefl _ this
    | cons b t => exact key_lt_asymm this key_lt_append

/-- The tree key of a proper prefix of the bound is below it. -/
theorem below_of_prefix (hp : P <+: q) (hne : P ≠ q) (hup : ∀ b : Byte, P ++ [b] <+: q → dollar ≤ b) : geBytes (P ++ [dollar]) (q ++ [dollar]) = false := by
  obtain ⟨t, rfl⟩ := hp
  cases t with
  | nil => simp at hne
  | cons c t =>
    have h1 := hup c (by simp)
    rcases Byte.lt_or_eq_or_lt dollar c with h | h | h
    · exact Before.below ⟨P, dollar, c, h, List.prefix_refl _, by simp⟩
    · subst h
      rw [geBytes_false]
      have : P ++ dollar :: t ++ [dollar] = (P ++ [dollar]) ++ (t ++ [dollar]) := by simp
      rw [this]
      cases hx : t ++ [dollar] with
      | nil => simp at hx
      | cons b s => exact key_lt_append
    · exact absurd h1 (by simpa using h)

theorem prefix_snoc_get (hp : p <+: Q) (hd : p.length < Q.length) : p ++ [Q[p.length]] <+: Q := by
  obtain ⟨t, rfl⟩ := hp
  cases t with
  | nil => simp at hd
  | cons b t => simp

theorem prefixMismatch_zero {d : Nat} (ha : h[a]? = some (.inner n)) (hw : n.partialLen = 0) : prefixMismatch h a Q Q.length d = .ok 0 := by
  unfold prefixMismatch
  simp only [rd_eq ha, Except.bind_ok, Cell.partialLen, Cell.part, maxPrefixLen, hw]
  rw [show min (min 10 0) (Q.length - d) = 0 by omega]
  rfl

/-- Two entries part at a node, or above it. -/
theorem fork_two {P : Key} (hL : Layout n es st)
    (hown : OwnLeaf h P n.leaf vals) (hnd : n.leaf ≠ none → dollar ∉ es.map (·.1)) (hne : es ≠ []) (htw : n.leaf ≠ none ∨ 2 ≤ es.length)
    (hch : ∀ b c, (b, c) ∈ es → Rep h (P ++ [b]) c (f b) (g b)) :
    ∃ e1 ∈ vals ++ es.flatMap (fun e => f e.1), ∃ e2 ∈ vals ++ es.flatMap (fun e => f e.1), e1.1 ≠ e2.1 ∧ P <+: getKey e1.1 ∧ P <+: getKey e2.1 := by
  have hkid : ∀ b c, (b, c) ∈ es → ∃ e, e ∈ es.flatMap (fun e => f e.1) ∧ P ++ [b] <+: e.1 ∧ P <+: getKey e.1 := fun b c hb => by
    obtain ⟨e, l, hl⟩ := List.exists_cons_of_ne_nil (hch b c hb).ne_nil
    have he : e ∈ f b := by rw [hl]; simp
    have hp := (hch b c hb).prefix e he
    obtain ⟨k, hk⟩ := (hch b c hb).dollar e he
    refine ⟨e, List.mem_flatMap.2 ⟨_, hb, he⟩, hp, ?_⟩
    rw [hk] at hp ⊢
    rw [getKey_snoc]
    exact prefix_of_edge hp
  rcases htw with h1 | h1
  · obtain ⟨⟨b, c⟩, es', rfl⟩ := List.exists_cons_of_ne_nil hne
    rcases hown.inv with ⟨ho, rfl⟩ | ⟨l, lc, ho, rfl, hl, hkey⟩
    · exact absurd ho h1
    · obtain ⟨e1, a1, b1, c1⟩ := hkid b c (by simp)
      refine ⟨e1, List.mem_append_right _ a1, (lc.key, lc.value, l), by simp, fun he => ?_, c1, by simp only [hkey, getKey_snoc]; exact List.prefix_refl _⟩
      simp only [hkey] at he
      rw [he] at b1
      have := prefix_edge b1 (List.prefix_refl _)
      exact hnd h1 (by rw [← this]; simp)
  · match es, h1, hL.sorted, hkid with
    | d1 :: d2 :: es, _, hs', hkid =>
      obtain ⟨e1, a1, b1, c1⟩ := hkid d1.1 d1.2 (by simp)
      obtain ⟨e2, a2, b2, c2⟩ := hkid d2.1 d2.2 (by simp)
      refine ⟨e1, List.mem_append_right _ a1, e2, List.mem_append_right _ a2, fun he => ?_, c1, c2⟩
      have h3 := prefix_edge b1 (he ▸ b2)
      have := (List.pairwise_cons.1 hs').1 d2 (by simp)
      rw [h3] at this
      exact Byte.lt_irrefl this

/-! ### Along the bound -/

/-- The bound fits the entries: no byte below `'$'` between a key and the bound when one continues the other. -/
structure DownTo (q : Key) (E : List (Ent V)) : Prop where
  up : ∀ e ∈ E, ∀ b : Byte, getKey e.1 ++ [b] <+: q → dollar ≤ b
  low : ∀ e ∈ E, ∀ b : Byte, q ++ [b] <+: getKey e.1 → dollar ≤ b

theorem DownTo.sub {F : List (Ent V)} (hf : DownTo q E) (hs : ∀ e ∈ F, e ∈ E) : DownTo q F :=
  ⟨fun e he => hf.up e (hs e he), fun e he => hf.low e (hs e he)⟩

/-- From `p` on, entries that share a prefix of the bound part right behind it. -/
def Parts (q p : Key) (E : List (Ent V)) : Prop := ∀ P, p <+: P → P <+: q → ∀ e1 ∈ E, ∀ e2 ∈ E, e1.1 ≠ e2.1 → P <+: getKey e1.1 → P <+: getKey e2.1 →
  ∃ e3 ∈ E, ∃ e4 ∈ E, ∃ b b' : Byte, b ≠ b' ∧ P ++ [b] <+: e3.1 ∧ P ++ [b'] <+: e4.1

theorem LbOK.of_eq {F F' : List (Ent V)} {r : R (List (Option Addr))} (hF : Ent.notBelow Q F = Ent.notBelow Q F') (hb : LbOK h Q F stk r) : LbOK h Q F' stk r := by
  obtain ⟨stk', h1, h2⟩ := hb
  exact ⟨stk', h1, fun r hg => hF ▸ h2 r hg⟩

theorem Rep.stored (hno : ¬ Removals.allowed) (hr : Rep h p a E N) : Shallow (List.replicate 9 0) E → Stored h N := by
  induction hr with
  | @leaf p a n l lc ha hL hpart hw hleaf hl hp hd =>
    intro _ x hx n' hn'
    simp only [List.map_cons, List.map_nil, List.mem_singleton] at hx
    rw [hx, ha] at hn'
    injection hn' with hn'
    injection hn' with hn'
    subst hn'
    rcases hw with hw | ⟨-, hw⟩
    · exact absurd hw hno
    · omega
  | @node p a n pfx es st vals f g ha hL hne hh hst hown hnd htw hch ih =>
    intro hs x hx n' hn'
    rw [List.map_cons, List.mem_cons] at hx
    rcases hx with rfl | hx
    · rw [ha] at hn'
      injection hn' with hn'
      injection hn' with hn'
      subst hn'
      have := shallow_node hL hown hnd hne.ne (htw.resolve_left hno).2 hch hs
      rw [List.length_append, List.length_replicate] at this
      rw [hh.len]
      omega
    · obtain ⟨y, hy, rfl⟩ := List.mem_map.1 hx
      obtain ⟨⟨b, c⟩, hb, hy⟩ := List.mem_flatMap.1 hy
      exact ih b c hb (fun e he e' he' => hs e (List.mem_append_right _ (List.mem_flatMap.2 ⟨_, hb, he⟩)) e' (List.mem_append_right _ (List.mem_flatMap.2 ⟨_, hb, he'⟩)))
        y.2 (List.mem_map.2 ⟨y, hy, rfl⟩) n' hn'

theorem Rep.lbSeek (hno : ¬ Removals.allowed) (hr : Rep h p a E N) : DownTo q E → Parts q p E → Slim h N → Stored h N →
    ∀ (fuel : Nat) (stk : List (Option Addr)) (parent : Option Addr) (P : Key) (pv : List (Ent V)),
    p <+: q ++ [Art.dollar] → q.length + 2 ≤ fuel + p.length → Above h parent P pv → (∀ e ∈ pv, geBytes e.1 (q ++ [Art.dollar]) = true → p = q ++ [Art.dollar]) →
    (parent = none → 2 ≤ E.length ∨ q.length ≤ 9) →
    LbOK h (q ++ [Art.dollar]) (pv ++ E) stk (lbLoop h (q ++ [Art.dollar]) fuel (some a) parent p.length false stk) := by
  have hQ : (q ++ [Art.dollar]).length = q.length + 1 := by simp
  induction hr with
  | @leaf p a n l lc ha hL hpart hw hleaf hl hp hd =>
    intro hf hD hsl hst fuel stk parent P pv hpq hfu hA hpv hpa
    have hrep := Rep.leaf ha hL hpart hw hleaf hl hp hd
    obtain ⟨fuel, rfl⟩ : ∃ k, fuel = k + 1 := ⟨fuel - 1, by have := hpq.length_le; omega⟩
    rcases hw with hw | ⟨hkind, hw⟩
    · exact absurd hw hno
    have hil : n.isLeaf = true := hL.isLeaf_iff.2 ⟨rfl, by rw [hleaf]; nofun⟩
    have hlk : nodeLeafKey h a = .ok (some lc.key) := by
      unfold nodeLeafKey; simp only [rd_eq ha, Except.bind_ok, Cell.nodeLeaf, hleaf, rdLeaf_eq hl]; rfl
    rw [lbLoop]
    simp only [rd_eq ha, Except.bind_ok, lbCmp_leaf hil, Cell.isLeaf, hil, hlk, Option.any_some]
    cases hge : geBytes lc.key (q ++ [Art.dollar]) with
    | true =>
      simp only [and_self, if_true]
      exact lbPushBoth_all hrep hA (fun e he => by rw [List.mem_singleton.1 he]; exact hge)
    | false =>
      have hpv' : ∀ e ∈ pv, geBytes e.1 (q ++ [Art.dollar]) = false := fun e he => by
        cases hg : geBytes e.1 (q ++ [Art.dollar]) with
        | false => rfl
        | true =>
          have := hpv e he hg
          rw [this] at hp
          rw [geBytes_prefix hp] at hge
          cases hge
      have hstay : LbOK h (q ++ [Art.dollar]) (pv ++ [(lc.key, lc.value, l)]) stk (.ok stk) := LbOK.stay fun e he => by
        rcases List.mem_append.1 he with he | he
        · exact hpv' e he
        · rw [List.mem_singleton.1 he]; exact hge
      have hpar : LbOK h (q ++ [Art.dollar]) (pv ++ [(lc.key, lc.value, l)]) stk (lbPushParent h (q ++ [Art.dollar]) parent stk) :=
        LbOK.then hA fun r hg => by
          rw [notBelow_none (fun e he => by rw [List.mem_singleton.1 he]; exact hge)]; exact hg
      have hpush : lbPush h (q ++ [Art.dollar]) a stk = .ok stk := by
        unfold lbPush; simp only [hlk, Except.bind_ok, hge]; rfl
      obtain ⟨j, hj, -⟩ := prefixMismatch_short (h := h) (Q := q ++ [Art.dollar]) (d := p.length) ha hpart (by omega)
      simp only [reduceCtorEq, false_and, if_false, Bool.false_eq_true, and_false, lbSkip, hj, Except.bind_ok, pure, Except.pure]
      split
      · simp only [if_true]; exact hstay
      simp only [Bool.false_eq_true, if_false, Bool.false_or]
      split
      · unfold lbPushBoth; rw [hpush]; exact hpar
      rename_i hge2
      rw [ge_iff_le, Nat.not_le] at hge2
      simp only [byteAt, List.getElem?_eq_getElem hge2, Except.bind_ok, Cell.getLowerBoundCh, hL.lower (l := []) (r := []) (Or.inl hkind) rfl (by simp) (by simp), if_true]
      by_cases hj0 : j > 0
      · simp only [hj0, decide_true, Bool.not_true, Bool.false_eq_true, and_false, if_false]
        unfold lbNoChild
        simp only [hge, Bool.false_eq_true, if_false, Except.bind_ok]
        cases parent with
        | none =>
          exfalso
          rcases hpa rfl with h1 | h1
          · simp at h1
          · have : n.partialLen = 0 := by omega
            rw [prefixMismatch_zero ha this] at hj
            injection hj with hj
            omega
        | some x => exact hpar
      · simp only [hj0, decide_false, Bool.not_false, and_self, if_true]
        exact hstay
  | @node p a n pfx es st vals f g ha hL hne hh hst hown hnd htw hch ih =>
    intro hf hD hsl hst' fuel stk parent P pv hpq hfu hA hpv hpa
    have hrep := Rep.node ha hL hne hh hst hown hnd htw hch
    have hpl := hpq.length_le
    obtain ⟨fuel, rfl⟩ : ∃ k, fuel = k + 1 := ⟨fuel - 1, by omega⟩
    have hlf := hL.not_leaf hne.ne
    have hkind := hsl a (by simp) n ha hlf
    have hp10 := hst' a (by simp) n ha
    have hlk := hown.leafKey ha
    rw [lbLoop]
    by_cases hend : p.length = (q ++ [Art.dollar]).length
    · -- the end of the bound
      have hpe : p = q ++ [Art.dollar] := hpq.eq_of_length hend
      have hE : ∀ e ∈ vals ++ es.flatMap (fun e => f e.1), geBytes e.1 (q ++ [Art.dollar]) = true := fun e he => geBytes_prefix (hpe ▸ hrep.prefix e he)
      have hboth := lbPushBoth_all (stk := stk) hrep hA hE
      rcases lbCmp_end (V := V) (Q := q ++ [Art.dollar]) hlf hh.part hp10 with hc | ⟨hc, h0⟩
      · rw [hend]
        simp only [rd_eq ha, Except.bind_ok, hc, Bool.not_false, and_self, if_true]
        exact hboth
      · rw [hend]
        simp only [rd_eq ha, Except.bind_ok, hc, reduceCtorEq, false_and, if_false, hlk, Cell.isLeaf, hlf, Bool.false_eq_true, lbSkip,
          prefixMismatch_zero ha h0, h0, Nat.lt_irrefl, pure, Except.pure, Nat.add_zero, ge_iff_le, Nat.le_refl, if_true]
        exact hboth
    have hlt : p.length < (q ++ [Art.dollar]).length := by omega
    have hpq' : p <+: q := by
      rcases prefix_dollar.1 hpq with h1 | h1
      · exact h1
      · rw [h1] at hend; exact absurd rfl hend
    -- no prefix
    have hpfx : pfx = [] := by
      cases pfx with
      | nil => rfl
      | cons x xs =>
        exfalso
        obtain ⟨e1, m1, e2, m2, h1, h2, h3⟩ := fork_two hL hown hnd hne.ne (htw.resolve_left hno).2 hch
        obtain ⟨e3, m3, e4, m4, b, b', hbb, h4, h5⟩ := hD p (List.prefix_refl _) hpq' e1 m1 e2 m2 h1 ((List.prefix_append _ _).trans h2) ((List.prefix_append _ _).trans h3)
        have hall : ∀ e ∈ vals ++ es.flatMap (fun e => f e.1), p ++ [x] <+: e.1 := fun e he => by
          have h6 : p ++ x :: xs <+: e.1 := by
            rcases List.mem_append.1 he with he | he
            · rcases hown.inv with ⟨-, rfl⟩ | ⟨l, lc, -, rfl, hl, hk⟩
              · cases he
              · rw [List.mem_singleton.1 he, hk]; exact List.prefix_append _ _
            · obtain ⟨⟨b, c⟩, hb, he⟩ := List.mem_flatMap.1 he
              exact (List.prefix_append _ _).trans ((hch b c hb).prefix e he)
          refine List.IsPrefix.trans ?_ h6
          exact ⟨xs, by simp⟩
        exact hbb ((prefix_edge h4 (hall _ m3)).trans (prefix_edge h5 (hall _ m4)).symm)
    subst hpfx
    have h0 : n.partialLen = 0 := by rw [hh.len]; rfl
    simp only [List.append_nil] at hown hst hch ih
    have hpv' : ∀ e ∈ pv, geBytes e.1 (q ++ [Art.dollar]) = false := fun e he => by
      cases hg : geBytes e.1 (q ++ [Art.dollar]) with
      | false => rfl
      | true => rw [hpv e he hg] at hend; exact absurd rfl hend
    simp only [rd_eq ha, Except.bind_ok, lbCmp_empty (V := V) (Q := q ++ [Art.dollar]) (d := p.length) hlf hh.part h0 (by omega) (by omega), reduceCtorEq, false_and, if_false, hlk, Cell.isLeaf,
      hlf, Bool.false_eq_true, lbSkip, prefixMismatch_zero ha h0, h0, Nat.lt_irrefl, pure, Except.pure, Nat.add_zero, ge_iff_le, Nat.not_le.2 hlt, gt_iff_lt, decide_false, Bool.or_false, Bool.false_or]
    simp only [byteAt, List.getElem?_eq_getElem hlt, Except.bind_ok, Cell.getLowerBoundCh]
    obtain ⟨l, r, h1, h2, h3⟩ := hL.sorted.split (q ++ [Art.dollar])[p.length]
    rw [hL.lower hkind h1 h2 h3]
    have hsn := prefix_snoc_get hpq hlt
    -- children before and behind
    have hbef : ∀ d ∈ es, d.1 < (q ++ [Art.dollar])[p.length] → ∀ e ∈ f d.1, geBytes e.1 (q ++ [Art.dollar]) = false := fun d hd hlt' e he =>
      Before.below ⟨p, d.1, _, hlt', (hch d.1 d.2 hd).prefix e he, hsn⟩
    have haft : ∀ d ∈ es, (q ++ [Art.dollar])[p.length] < d.1 → ∀ e ∈ f d.1, geBytes e.1 (q ++ [Art.dollar]) = true := fun d hd hlt' e he =>
      Before.notBelow ⟨p, _, d.1, hlt', hsn, (hch d.1 d.2 hd).prefix e he⟩
    -- the own leaf
    have hown' : ∀ e ∈ vals, e.1 = p ++ [Art.dollar] := fun e he => by
      rcases hown.inv with ⟨-, rfl⟩ | ⟨l, lc, -, rfl, hl, hk⟩
      · cases he
      · rw [List.mem_singleton.1 he, hk]
    have hownge : ∀ e ∈ vals, geBytes e.1 (q ++ [Art.dollar]) = true → p = q := fun e he hg => by
      refine Decidable.byContradiction fun hpne => ?_
      have := below_of_prefix hpq' hpne (fun b hb => hf.up e (by simp [he]) b (by rw [hown' e he, getKey_snoc]; exact hb))
      rw [hown' e he, this] at hg
      cases hg
    simp only [Except.bind_ok]
    by_cases hr0 : r = []
    · simp only [hr0, if_true, Bool.not_false, and_self]
      refine LbOK.stay fun e he => ?_
      rcases List.mem_append.1 he with he | he
      · exact hpv' e he
      rcases List.mem_append.1 he with he | he
      · cases hg : geBytes e.1 (q ++ [Art.dollar]) with
        | false => rfl
        | true =>
          exfalso
          have hpe := hownge e he hg
          subst hpe
          obtain ⟨⟨b, c⟩, es', rfl⟩ := List.exists_cons_of_ne_nil hne.ne
          have h5 := h2 (b, c) (by rw [hr0, List.append_nil] at h1; rw [← h1]; simp)
          simp only [List.getElem_concat_length] at h5
          obtain ⟨e', l', hl'⟩ := List.exists_cons_of_ne_nil (hch b c (by simp)).ne_nil
          have he' : e' ∈ f b := by rw [hl']; simp
          have hp' := (hch b c (by simp)).prefix e' he'
          obtain ⟨k, hk⟩ := (hch b c (by simp)).dollar e' he'
          rw [hk] at hp'
          rcases prefix_dollar.1 hp' with h6 | h6
          · have := hf.low e' (List.mem_append_right _ (List.mem_flatMap.2 ⟨(b, c), by simp, he'⟩)) b (by rw [hk, getKey_snoc]; exact h6)
            exact absurd h5 (by simpa using this)
          · rw [(snoc2 h6).2] at h5
            exact Byte.lt_irrefl h5
      · obtain ⟨d, hd, he⟩ := List.mem_flatMap.1 he
        exact hbef d hd (h2 d (by rw [hr0, List.append_nil] at h1; rw [← h1]; exact hd)) e he
    · obtain ⟨⟨b, c⟩, r', rfl⟩ := List.exists_cons_of_ne_nil hr0
      have hi : ¬ ((if (b, c) :: r' = [] then -1 else (l.length : Int)) = -1) := by rw [if_neg (by simp)]; omega
      have hi' : (if (b, c) :: r' = [] then -1 else (l.length : Int)) = (l.length : Int) := if_neg (by simp)
      have hpk : ∃ pk, parentLeafKey h parent = .ok pk := by
        rcases hA with ⟨rfl, rfl⟩ | ⟨x, n', rfl, hx, ho'⟩
        · exact ⟨none, rfl⟩
        · exact ⟨_, ho'.leafKey hx⟩
      obtain ⟨pk, hpk⟩ := hpk
      have hlen : l.length < es.length := by rw [h1]; simp
      have hget : es[l.length] = (b, c) := by simp [h1]
      have hmem : (b, c) ∈ es := by rw [h1]; simp
      have hsort := hL.sorted
      rw [h1] at hsort
      obtain ⟨-, hgt⟩ := hsort.lt_left
      have hnlt := h3 (b, c) (by simp)
      have hr' : ∀ d ∈ r', d ∈ es ∧ (q ++ [Art.dollar])[p.length] < d.1 := fun d hd => by
        refine ⟨by rw [h1]; simp [hd], ?_⟩
        have h5 := hgt d hd
        rcases Byte.lt_or_eq_or_lt (q ++ [Art.dollar])[p.length] d.1 with h | h | h
        · exact h
        · rw [← h] at h5; exact absurd h5 hnlt
        · exact absurd h (h3 d (by simp [hd]))
      have hdrop : es.drop (l.length + 1) = r' := by
        rw [h1, ← List.drop_drop, List.drop_left]; rfl
      have hrest : lbPushChildren h (q ++ [Art.dollar]) (.inner n) (l.length + 1) false n.numChildren.toNat stk = .ok (r'.map (fun e => some e.2) ++ stk) := by
        rw [hL.num, lbPushChildren_all hL hkind hch (fun d hd => by rw [hdrop] at hd; exact haft d (hr' d hd).1 (hr' d hd).2) (Nat.le_refl _), List.take_length, hdrop]
      simp only [hi', if_neg (show ¬ ((l.length : Int) = -1) by omega), false_and, if_false, hpk, Except.bind_ok, Int.toNat_natCast, Cell.numChildren, hrest, Cell.getKeyAtIdx, Cell.getChild,
        (hL.child_at hkind hlen).1, (hL.child_at hkind hlen).2, hget]
      have hlenb : (p ++ [b]).length = p.length + 1 := by simp
      have hsl' : Slim h (g b) := fun x hx => hsl x (by
        obtain ⟨y, hy, rfl⟩ := List.mem_map.1 hx
        exact List.mem_map.2 ⟨y, List.mem_cons_of_mem _ (List.mem_flatMap.2 ⟨_, hmem, hy⟩), rfl⟩)
      have hstb : Stored h (g b) := fun x hx => hst' x (by
        obtain ⟨y, hy, rfl⟩ := List.mem_map.1 hx
        exact List.mem_map.2 ⟨y, List.mem_cons_of_mem _ (List.mem_flatMap.2 ⟨_, hmem, hy⟩), rfl⟩)
      have hrec : LbOK h (q ++ [Art.dollar]) (vals ++ f b) (r'.map (fun e => some e.2) ++ stk)
          (lbLoop h (q ++ [Art.dollar]) fuel (some c) (some a) (p.length + 1) (b != (q ++ [Art.dollar])[p.length]) (r'.map (fun e => some e.2) ++ stk)) := by
        rw [← hlenb]
        by_cases hb : b = (q ++ [Art.dollar])[p.length]
        · have : (b != (q ++ [Art.dollar])[p.length]) = false := by simp [hb]
          rw [this]
          refine ih b c hmem (hf.sub fun e he => List.mem_append_right _ (List.mem_flatMap.2 ⟨_, hmem, he⟩)) ?_ hsl' hstb fuel _ (some a) p vals (by rw [hb]; exact hsn)
            (by rw [hlenb]; omega) (Or.inr ⟨a, n, rfl, ha, hown⟩) ?_ nofun
          · intro P' hP hPq e1 m1 e2 m2 d1 d2 d3
            have hin : ∀ e ∈ f b, e ∈ vals ++ es.flatMap (fun e => f e.1) := fun e he => List.mem_append_right _ (List.mem_flatMap.2 ⟨_, hmem, he⟩)
            obtain ⟨e3, m3, e4, m4, b1, b2, d4, d5, d6⟩ := hD P' ((List.prefix_append _ _).trans hP) hPq e1 (hin _ m1) e2 (hin _ m2) d1 d2 d3
            have hback : ∀ e ∈ vals ++ es.flatMap (fun e => f e.1), p ++ [b] <+: e.1 → e ∈ f b := fun e he hpe => by
              rcases List.mem_append.1 he with he | he
              · exfalso
                rw [hown' e he] at hpe
                have h6 := prefix_edge hpe (List.prefix_refl _)
                have hlv : n.leaf ≠ none := by
                  rcases hown.inv with ⟨-, rfl⟩ | ⟨l, lc, hn, -, -, -⟩
                  · cases he
                  · rw [hn]; nofun
                exact hnd hlv (List.mem_map.2 ⟨_, hmem, h6⟩)
              · obtain ⟨d, hd, he⟩ := List.mem_flatMap.1 he
                rw [prefix_edge hpe ((hch d.1 d.2 hd).prefix e he)]
                exact he
            exact ⟨e3, hback e3 m3 (hP.trans ((List.prefix_append _ _).trans d5)), e4, hback e4 m4 (hP.trans ((List.prefix_append _ _).trans d6)), b1, b2, d4, d5, d6⟩
          · intro e he hg
            have := hownge e he hg
            subst this
            rw [hb]
            simp
        · have : (b != (q ++ [Art.dollar])[p.length]) = true := by simp [hb]
          rw [this]
          refine (hch b c hmem).lbAfter hsl' hstb (haft _ hmem ?_) fuel _ (some a) p vals (by rw [hlenb]; omega) (by rw [hlenb]; omega) (Or.inr ⟨a, n, rfl, ha, hown⟩) nofun
          rcases Byte.lt_or_eq_or_lt (q ++ [Art.dollar])[p.length] b with h | h | h
          · exact h
          · exact absurd h.symm hb
          · exact absurd h hnlt
      obtain ⟨stk', e1, e2⟩ := hrec
      refine ⟨stk', e1, fun r hg => ?_⟩
      have := e2 _ (lb_kids (ds := r') (fun b c hb => hch b c (by rw [h1]; simp [hb])) hg)
      have h5 : (es.flatMap fun e => f e.1) = (l.flatMap fun e => f e.1) ++ (f b ++ r'.flatMap fun e => f e.1) := by
        conv => lhs; rw [h1, List.flatMap_append, List.flatMap_cons]
      have h6 : Ent.notBelow (q ++ [Art.dollar]) (l.flatMap fun e => f e.1) = [] := notBelow_none fun e he => by
        obtain ⟨d, hd, he⟩ := List.mem_flatMap.1 he
        exact hbef d (by rw [h1]; simp [hd]) (h2 d hd) e he
      have h7 : Ent.notBelow (q ++ [Art.dollar]) (r'.flatMap fun e => f e.1) = r'.flatMap fun e => f e.1 := notBelow_all fun e he => by
        obtain ⟨d, hd, he⟩ := List.mem_flatMap.1 he
        exact haft d (hr' d hd).1 (hr' d hd).2 e he
      rw [h5, notBelow_append, notBelow_append, notBelow_append, notBelow_append, notBelow_none hpv', h6, h7]
      rw [notBelow_append] at this
      simpa [List.append_assoc] using this

/-- Under the conditions on bytes below `'$'`, tree keys are compared like keys. -/
theorem geBytes_dollar {k : Key} (h1 : ∀ b : Byte, k ++ [b] <+: q → dollar ≤ b) (h2 : ∀ b : Byte, q ++ [b] <+: k → dollar ≤ b) :
    geBytes (k ++ [dollar]) (q ++ [dollar]) = geBytes k q := by
  cases hc : geBytes k q with
  | false =>
    have hlt := geBytes_false.1 hc
    have h3 : leBytes k q = true := by
      cases h4 : leBytes k q with
      | true => rfl
      | false => exact (key_lt_asymm hlt (leBytes_false.1 h4)).elim
    have h5 := leBytes_dollar h1 h3
    rw [geBytes_false, ← cmpBytes_lt]
    cases h6 : cmpBytes (k ++ [dollar]) (q ++ [dollar]) with
    | lt => rfl
    | gt => simp [leBytes, h6] at h5
    | eq =>
      have := List.append_cancel_right (cmpBytes_eq.1 h6)
      subst this
      exact (key_lt_irrefl _ hlt).elim
  | true =>
    have h3 : leBytes q k = true := by
      cases h4 : leBytes q k with
      | true => rfl
      | false => rw [geBytes_false.2 (leBytes_false.1 h4)] at hc; cases hc
    have h5 := leBytes_dollar h2 h3
    cases h6 : geBytes (k ++ [dollar]) (q ++ [dollar]) with
    | true => rfl
    | false => rw [leBytes_false.2 (geBytes_false.1 h6)] at h5; cases h5

theorem notBelow_eq {F : List (Ent V)} (hf : DownTo q F) (hd : ∀ e ∈ F, ∃ k, e.1 = k ++ [dollar]) :
    (Ent.notBelow (q ++ [dollar]) F).map Ent.out = (F.map Ent.out).filter fun e => decide (cmpBytes e.1 q ≠ .lt) := by
  rw [Ent.notBelow, List.filter_map]
  congr 1
  refine List.filter_congr fun e he => ?_
  obtain ⟨k, hk⟩ := hd e he
  have h1 := hf.up e he
  have h2 := hf.low e he
  rw [hk, getKey_snoc] at h1 h2
  have h3 : (Ent.out e).1 = k := by rw [← getKey_snoc k dollar, ← hk]; rfl
  have h4 : geBytes e.1 (q ++ [dollar]) = geBytes (Ent.out e).1 q := by rw [hk, geBytes_dollar h1 h2, h3]
  rw [h4]
  by_cases hc : cmpBytes (Ent.out e).1 q = .lt <;> simp [geBytes, hc]

theorem ViewOf.lowBound [Inhabited V] {ex : Bool} {t : Tree} {full : Bool} (hno : ¬ Removals.allowed) (hv : ViewOf ex h t.root t.size full m) (hne : m ≠ [])
    (h2 : 2 ≤ m.length ∨ q.length ≤ 9) (hb : m.Branching q) (hw : m.Narrow 12) :
    ∃ l, Ends (iterLowerBound h t q) l ∧ l.Perm (m.filter fun e => cmpBytes e.1 q ≠ .lt) ∧ (m.Ordered → l.Pairwise fun a b => Key.lt a.1 b.1) := by
  by_cases hq : q = []
  · subst hq
    obtain ⟨E, N, hr, ha⟩ := hv.entries hne
    have h1 := hr.lb [] [] ((lbM h).gives_stop (s' := []) fun F => by rw [lbM_next, lbNext])
    rw [List.append_nil] at h1
    refine ⟨_, Machine.Gives.ends (lbM h) h1, ?_, ha.sorted hr⟩
    rw [List.filter_eq_self.2]
    · exact ha.perm hr hv.nodup
    · rintro ⟨k, v⟩ -
      cases k <;> simp [cmpBytes]
  obtain ⟨E, N, hr, ha⟩ := hv.entries hne
  have hmem : ∀ e ∈ E, m.has (getKey e.1) := fun e he => by
    obtain ⟨k, hk⟩ := hr.dollar e he
    rw [hk, getKey_snoc]
    exact ⟨_, ha.mem he hk⟩
  have hinj : ∀ e ∈ E, ∀ e' ∈ E, e.1 ≠ e'.1 → getKey e.1 ≠ getKey e'.1 := fun e he e' he' hk heq => hk (by
    obtain ⟨k, hk1⟩ := hr.dollar e he
    obtain ⟨k', hk2⟩ := hr.dollar e' he'
    rw [hk1, hk2, getKey_snoc, getKey_snoc] at heq
    rw [hk1, hk2, heq])
  have hperm := ha.perm hr hv.nodup
  have hent : ∀ k, m.has k → ∃ e ∈ E, e.1 = k ++ [dollar] := fun k ⟨v, hk⟩ => by
    obtain ⟨e, he, heq⟩ := List.mem_map.1 (hperm.symm.subset hk)
    obtain ⟨k', hk'⟩ := hr.dollar e he
    refine ⟨e, he, ?_⟩
    have : getKey e.1 = k := congrArg (·.1) heq
    rw [hk', getKey_snoc] at this
    rw [hk', this]
  have hf : DownTo q E := ⟨fun e he b h1 => hb.up _ b (hmem e he) h1, fun e he b h1 => hb.low _ b (hmem e he) h1⟩
  have hs : Shallow (List.replicate 9 0) E := fun e he e' he' hk P h1 h2 => by
    rw [List.length_replicate]
    exact hb.close _ _ P (hmem e he) (hmem e' he') (hinj e he e' he' hk) h1 h2
  have hsl : Slim h N := fun x hx n hn hlf => by
    obtain ⟨h1, h2, h3⟩ := hr.narrow (ha.narrow hr hw) x hx n hn hlf
    cases hk : n.kind with
    | n4 => exact Or.inl rfl
    | n16 => exact Or.inr rfl
    | n48 => have := h2 hk; omega
    | n256 => have := h3 hk; omega
  have hD : Parts q [] E := fun P _ hP e1 m1 e2 m2 d1 d2 d3 => by
    obtain ⟨k1, k2, b, b', g1, g2, g3, g4, g5⟩ := hb.fork _ _ P hP (hmem e1 m1) (hmem e2 m2) (hinj e1 m1 e2 m2 d1) d2 d3
    obtain ⟨e3, m3, r3⟩ := hent k1 g1
    obtain ⟨e4, m4, r4⟩ := hent k2 g2
    exact ⟨e3, m3, e4, m4, b, b', g3, by rw [r3]; exact g4, by rw [r4]; exact g5⟩
  have hlen : E.length = m.length := by rw [← hperm.length_eq, List.length_map]
  obtain ⟨stk, e1, e4⟩ := hr.lbSeek hno hf hD hsl (hr.stored hno hs) (q.length + 2) [] none [] [] List.nil_prefix (by simp) (Or.inl ⟨rfl, rfl⟩) (by simp) (fun _ => by rw [hlen]; exact h2)
  have hg := e4 [] ((lbM h).gives_stop (s' := []) fun F => by rw [lbM_next, lbNext])
  rw [List.append_nil, List.nil_append, notBelow_eq hf hr.dollar] at hg
  have hpos : seekLowerBound h t.root q = .ok stk := by
    unfold seekLowerBound getTreeKey
    rw [if_neg (by simpa [List.length_eq_zero_iff] using hq)]
    have : (q ++ [dollar]).length + 1 = q.length + 2 := by simp
    rw [this]
    exact e1
  refine ⟨_, ?_, hperm.filter _, fun ho => (ha.sorted hr ho).sublist List.filter_sublist⟩
  have := Machine.Gives.ends (lbM h) hg
  unfold iterLowerBound
  rw [hpos]
  exact this

end Art
