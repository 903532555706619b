import Verif.Proofs.Pair5
import Verif.Proofs.Snapshot
import Verif.Proofs.RankRead
/-
A tree and its renamed copy in another heap answer all reads alike.
-/
set_option autoImplicit false
set_option linter.unusedVariables false
set_option linter.unusedSimpArgs false
set_option linter.unusedSectionVars false
namespace Art

/-! ### Two computations that end alike, exhausted loop bounds included -/

/-- Both fail alike, or both succeed with related results. -/
inductive Both {α β : Type} (Q : α → β → Prop) : R α → R β → Prop
  | error (e : Err) : Both Q (.error e) (.error e)
  | ok {a : α} {b : β} (h : Q a b) : Both Q (.ok a) (.ok b)

section
variable {α β γ δ : Type} {Q : α → β → Prop} {Q' : γ → δ → Prop}

theorem Both.bind {x : R α} {y : R β} {f : α → R γ} {g : β → R δ} (h : Both Q x y)
    (hf : ∀ a b, Q a b → Both Q' (f a) (g b)) : Both Q' (x >>= f) (y >>= g) := by
  cases h with
  | error e => exact .error e
  | ok h => exact hf _ _ h

theorem Both.pure {a : α} {b : β} (h : Q a b) : Both Q (Pure.pure a) (Pure.pure b) := .ok h

theorem Both.ofPar {x : R α} {y : R β} (h : Par Q x y) (hx : x ≠ .error .fuel) : Both Q x y := by
  cases h with
  | fuel y => exact absurd rfl hx
  | error e => exact .error e
  | ok h => exact .ok h

theorem Both.eq {x y : R α} (h : Both (fun a b => b = a) x y) : y = x := by
  cases h with
  | error e => rfl
  | ok h => rw [h]
end

variable {V : Type} {σ : Addr → Addr}
variable [Lim]

theorem ren_iterChildren (n : Inner) (k : Option ChanId) : (n.ren σ k).iterChildren = n.iterChildren.map (Option.map σ) := by
  unfold Inner.iterChildren
  rw [show (n.ren σ k).kind = n.kind from rfl]
  cases n.kind with
  | n4 => exact (List.map_take ..).symm
  | n16 => exact (List.map_take ..).symm
  | n48 =>
    dsimp only
    rw [ren_compact48, List.map_filterMap, List.filterMap_map]
    refine filterMap_same _ fun p => ?_
    obtain ⟨b, o⟩ := p
    cases o <;> rfl
  | n256 =>
    show (n.children.map (Option.map σ)).filterMap _ = _
    rw [List.map_filterMap, List.filterMap_map]
    refine filterMap_same _ fun o => ?_
    cases o <;> rfl

theorem ren_revChildren (n : Inner) (k : Option ChanId) : (n.ren σ k).revChildren = n.revChildren.map (Option.map σ) := by
  unfold Inner.revChildren
  rw [ren_iterChildren, List.map_reverse]

theorem ren_pathChildren (n : Inner) (k : Option ChanId) : (n.ren σ k).pathChildren = n.pathChildren.map σ := by
  have e : ∀ xs : List (Option Addr), (xs.map (Option.map σ)).filterMap _root_.id = (xs.filterMap _root_.id).map σ := by
    intro xs
    rw [List.map_filterMap, List.filterMap_map]
    refine filterMap_same _ fun o => ?_
    cases o <;> rfl
  unfold Inner.pathChildren
  rw [show (n.ren σ k).kind = n.kind from rfl]
  cases n.kind with
  | n4 =>
    show ((n.children.map (Option.map σ)).take _).filterMap _ = _
    rw [← List.map_take, e]; rfl
  | n16 =>
    show ((n.children.map (Option.map σ)).take _).filterMap _ = _
    rw [← List.map_take, e]; rfl
  | n48 =>
    dsimp only
    rw [ren_compact48, List.map_filterMap, List.filterMap_map]
    refine filterMap_same _ fun p => ?_
    obtain ⟨b, o⟩ := p
    cases o <;> rfl
  | n256 => exact e _

/-- The iterator with its pointers renamed. -/
def Iter.ren (σ : Addr → Addr) (it : Iter) : Iter := { it with node := it.node.map σ, stack := it.stack.map (Option.map σ) }

/-- The iterator with its pointers renamed. -/
def PathIter.ren (σ : Addr → Addr) (it : PathIter) : PathIter := { it with stack := it.stack.map σ }

/-- The iterator with its pointers renamed. -/
def RevIter.ren (σ : Addr → Addr) (it : RevIter) : RevIter :=
  { it with node := it.node.map σ, stack := it.stack.map (List.map (Option.map σ)), expanded := it.expanded.map σ }

section
variable {h h' : Heap V} (H : HRel σ h h')
include H

theorem HRel.rdBoth (a : Addr) : Both (CRel σ) (Art.rd h a) (Art.rd h' (σ a)) := .ofPar (H.rd a) (rd_nofuel _ _)

theorem HRel.rdLeafBoth (a : Addr) : Both (fun l l' => ∃ k, l' = { l with ch := k }) (Art.rdLeaf h a) (Art.rdLeaf h' (σ a)) :=
  .ofPar (H.rdLeaf a) (rdLeaf_nofuel _ _)

theorem HRel.iterNext (f : Nat) (it : Iter) :
    Both (fun r r' => r' = (r.1, r.2.ren σ)) (iterNext h f it) (iterNext h' f (it.ren σ)) := by
  induction f generalizing it with
  | zero => exact .error _
  | succ f ih =>
    obtain ⟨p, nd, st, sm⟩ := it
    cases st with
    | nil => exact .ok rfl
    | cons o st =>
      cases o with
      | none => exact .ok rfl
      | some a =>
        show Both _ (Art.iterNext h (f + 1) ⟨p, nd, some a :: st, sm⟩) (Art.iterNext h' (f + 1) ⟨p, nd.map σ, some (σ a) :: st.map (Option.map σ), sm⟩)
        unfold Art.iterNext
        refine .bind (H.rdBoth a) fun c c' hc => ?_
        cases hc with
        | leaf l k =>
          dsimp only
          split
          · exact .pure rfl
          · exact ih ⟨p, nd, st, sm⟩
        | inner n k =>
          dsimp only
          rw [ren_iterChildren, show (n.ren σ k).leaf = n.leaf.map σ from rfl]
          have key := ih ⟨p, nd, n.iterChildren ++ st, sm⟩
          rw [show Iter.ren σ ⟨p, nd, n.iterChildren ++ st, sm⟩ = ⟨p, nd.map σ, n.iterChildren.map (Option.map σ) ++ st.map (Option.map σ), sm⟩ by
            simp [Iter.ren]] at key
          cases n.leaf with
          | none => exact key
          | some l =>
            refine .bind (H.rdLeafBoth l) fun x x' hx => ?_
            obtain ⟨k, rfl⟩ := hx
            dsimp only
            split
            · exact .pure (by simp [Iter.ren])
            · exact key

theorem HRel.iterCollect (f : Nat) (it : Iter) : Both (fun r r' => r' = r) (iterCollect h f it) (iterCollect h' f (it.ren σ)) := by
  induction f generalizing it with
  | zero => exact .error _
  | succ f ih =>
    unfold Art.iterCollect
    refine .bind (H.iterNext _ it) fun x x' hx => ?_
    subst hx
    obtain ⟨r, it2⟩ := x
    cases r with
    | none => exact .pure rfl
    | some kv =>
      refine .bind (ih it2) fun y y' hy => ?_
      subst hy
      exact .pure rfl

theorem HRel.pathNext (f : Nat) (it : PathIter) :
    Both (fun r r' => r' = (r.1, r.2.ren σ)) (pathNext h f it) (pathNext h' f (it.ren σ)) := by
  induction f generalizing it with
  | zero => exact .error _
  | succ f ih =>
    obtain ⟨p, st⟩ := it
    cases st with
    | nil => exact .ok rfl
    | cons a st =>
      show Both _ (Art.pathNext h (f + 1) ⟨p, a :: st⟩) (Art.pathNext h' (f + 1) ⟨p, σ a :: st.map σ⟩)
      unfold Art.pathNext
      refine .bind (H.rdBoth a) fun c c' hc => ?_
      cases hc with
      | leaf l k =>
        dsimp only
        split
        · exact .pure rfl
        · exact ih ⟨p, st⟩
      | inner n k =>
        dsimp only
        rw [ren_pathChildren, show (n.ren σ k).leaf = n.leaf.map σ from rfl]
        have key := ih ⟨p, n.leaf.toList ++ n.pathChildren ++ st⟩
        rw [show PathIter.ren σ ⟨p, n.leaf.toList ++ n.pathChildren ++ st⟩ = ⟨p, (n.leaf.map σ).toList ++ n.pathChildren.map σ ++ st.map σ⟩ by
          cases n.leaf <;> simp [PathIter.ren]] at key
        exact key

theorem HRel.pathCollect (f : Nat) (it : PathIter) : Both (fun r r' => r' = r) (pathCollect h f it) (pathCollect h' f (it.ren σ)) := by
  induction f generalizing it with
  | zero => exact .error _
  | succ f ih =>
    unfold Art.pathCollect
    refine .bind (H.pathNext _ it) fun x x' hx => ?_
    subst hx
    obtain ⟨r, it2⟩ := x
    cases r with
    | none => exact .pure rfl
    | some kv =>
      refine .bind (ih it2) fun y y' hy => ?_
      subst hy
      exact .pure rfl

theorem HRel.lbNext (f : Nat) (st : List (Option Addr)) :
    Both (fun r r' => r' = (r.1, r.2.map (Option.map σ))) (lbNext h f st) (lbNext h' f (st.map (Option.map σ))) := by
  induction f generalizing st with
  | zero => exact .error _
  | succ f ih =>
    cases st with
    | nil => exact .ok rfl
    | cons o st =>
      cases o with
      | none => exact .ok rfl
      | some a =>
        show Both _ (Art.lbNext h (f + 1) (some a :: st)) (Art.lbNext h' (f + 1) (some (σ a) :: st.map (Option.map σ)))
        unfold Art.lbNext
        refine .bind (H.rdBoth a) fun c c' hc => ?_
        cases hc with
        | leaf l k => exact .pure rfl
        | inner n k =>
          dsimp only
          rw [ren_iterChildren, show (n.ren σ k).leaf = n.leaf.map σ from rfl, ← List.map_append]
          cases n.leaf with
          | none => exact ih _
          | some l =>
            refine .bind (H.rdLeafBoth l) fun x x' hx => ?_
            obtain ⟨k, rfl⟩ := hx
            exact .pure rfl

theorem HRel.lbCollect (f : Nat) (st : List (Option Addr)) :
    Both (fun r r' => r' = r) (lbCollect h f st) (lbCollect h' f (st.map (Option.map σ))) := by
  induction f generalizing st with
  | zero => exact .error _
  | succ f ih =>
    unfold Art.lbCollect
    refine .bind (H.lbNext _ st) fun x x' hx => ?_
    subst hx
    obtain ⟨r, it2⟩ := x
    cases r with
    | none => exact .pure rfl
    | some kv =>
      refine .bind (ih it2) fun y y' hy => ?_
      subst hy
      exact .pure rfl

theorem HRel.leafOf (o : Option Addr) :
    Both (fun r r' => ∃ k, r' = r.map fun x => (σ x.1, { x.2 with ch := k })) (leafOf h o) (leafOf h' (o.map σ)) := by
  cases o with
  | none => exact .ok ⟨none, rfl⟩
  | some l =>
    refine .bind (H.rdLeafBoth l) fun x x' hx => ?_
    obtain ⟨k, rfl⟩ := hx
    exact .pure ⟨k, rfl⟩

omit H in
theorem revLeafPush_ren (path : Key) (lf : Option (Addr × LeafC V)) (k : Option ChanId) (st : List (Option Addr)) :
    revLeafPush path (lf.map fun x => (σ x.1, { x.2 with ch := k })) (st.map (Option.map σ)) = (revLeafPush path lf st).map (Option.map σ) := by
  cases lf with
  | none => rfl
  | some x =>
    obtain ⟨l, lc⟩ := x
    unfold revLeafPush
    dsimp only [Option.map_some]
    split <;> rfl

theorem HRel.revNext (hσ : Function.Injective σ) (path : Key) (ex : List Addr) (f : Nat) (st : List (Option Addr)) :
    Both (fun r r' => r' = (r.1, r.2.map (Option.map σ))) (revNext h path ex f st) (revNext h' path (ex.map σ) f (st.map (Option.map σ))) := by
  induction f generalizing st with
  | zero => exact .error _
  | succ f ih =>
    cases st with
    | nil => exact .ok rfl
    | cons o st =>
      cases o with
      | none => exact .ok rfl
      | some a =>
        show Both _ (Art.revNext h path ex (f + 1) (some a :: st)) (Art.revNext h' path (ex.map σ) (f + 1) (some (σ a) :: st.map (Option.map σ)))
        unfold Art.revNext
        refine .bind (H.rdBoth a) fun c c' hc => ?_
        cases hc with
        | leaf l k =>
          dsimp only
          split
          · exact .pure rfl
          · exact ih _
        | inner n k =>
          dsimp only
          rw [ren_revChildren, show (n.ren σ k).leaf = n.leaf.map σ from rfl]
          refine .bind (H.leafOf n.leaf) fun lf lf' hlf => ?_
          obtain ⟨k2, rfl⟩ := hlf
          have e1 : (ex.map σ).contains (σ a) = ex.contains a := by
            rw [Bool.eq_iff_iff]
            simp only [List.contains_iff_mem, List.mem_map]
            exact ⟨fun ⟨b, hb, e⟩ => hσ e ▸ hb, fun hb => ⟨a, hb, rfl⟩⟩
          rw [e1, revLeafPush_ren, ← List.map_append]
          split
          · exact ih _
          · cases lf with
            | none => exact ih _
            | some x =>
              obtain ⟨l, lc⟩ := x
              dsimp only [Option.map_some]
              split
              · exact .pure rfl
              · exact ih _

theorem HRel.revPrevious (hσ : Function.Injective σ) (f : Nat) (it : RevIter) :
    Both (fun r r' => r' = (r.1, r.2.ren σ)) (revPrevious h f it) (revPrevious h' f (it.ren σ)) := by
  obtain ⟨p, nd, st, ex⟩ := it
  have key : ∀ s, Both (fun r r' => r' = (r.1, r.2.ren σ))
      (do let (r, s') ← Art.revNext h p ex f s; Pure.pure (r, (⟨p, nd, some s', ex⟩ : RevIter)))
      (do let (r, s') ← Art.revNext h' p (ex.map σ) f (s.map (Option.map σ)); Pure.pure (r, (⟨p, nd.map σ, some s', ex.map σ⟩ : RevIter))) := by
    intro s
    refine .bind (H.revNext hσ p ex f s) fun x x' hx => ?_
    subst hx
    exact .pure rfl
  cases st with
  | some s => exact key s
  | none =>
    cases nd with
    | none => exact key []
    | some a => exact key [some a]

theorem HRel.revCollect (hσ : Function.Injective σ) (f : Nat) (it : RevIter) :
    Both (fun r r' => r' = r) (revCollect h f it) (revCollect h' f (it.ren σ)) := by
  induction f generalizing it with
  | zero => exact .error _
  | succ f ih =>
    unfold Art.revCollect
    refine .bind (H.revPrevious hσ _ it) fun x x' hx => ?_
    subst hx
    obtain ⟨r, it2⟩ := x
    cases r with
    | none => exact .pure rfl
    | some kv =>
      refine .bind (ih it2) fun y y' hy => ?_
      subst hy
      exact .pure rfl

variable {rk : Addr → Nat}

/-- A tree and its renamed copy answer alike. -/
theorem HRel.reads [Inhabited V] (hr : Ranked rk h) (hσ : Function.Injective σ) (hl : h.length ≤ h'.length) {t t' : Tree} (ht : t'.root = σ t.root) :
    SameReads h t h' t' where
  get := fun k => (Both.ofPar (H.treeGet t k t' ht) (treeGet_nofuel _ _ _)).eq
  minimum := (Both.ofPar (H.treeMinimum hl ht) (hr.treeMinimum _)).eq
  maximum := (Both.ofPar (H.treeMaximum hl ht) (hr.treeMaximum _)).eq
  longest := fun k => (Both.ofPar (H.longestPrefix ht k) (longestPrefix_nofuel _ _ _)).eq
  walk := fun fn => (Both.ofPar (H.treeWalk hl ht fn) (hr.treeWalk _ _)).eq
  iter := fun p fuel => by
    refine Both.eq ?_
    unfold iterPrefix seekPrefix
    rw [ht]
    refine Both.bind (Q := fun r r' => r' = (r.1.ren σ, σ r.2)) ?_ fun x x' hx => hx ▸ H.iterCollect fuel x.1
    refine .bind (Both.ofPar (H.seekLoop hl _ _ t.root 0) (hr.seekLoop _ _ _ _ (by omega) (by omega))) fun n n' hn => ?_
    subst hn
    exact .pure rfl
  path := fun q fuel => by
    have := H.pathCollect fuel (getPathIterator t q)
    rw [show (getPathIterator t q).ren σ = getPathIterator t' q by simp [PathIter.ren, getPathIterator, ht]] at this
    exact this.eq
  reverse := fun fuel => by
    have := H.revCollect hσ fuel (mkRevIter t.root)
    rw [show (mkRevIter t.root).ren σ = mkRevIter t'.root by simp [RevIter.ren, mkRevIter, ht]] at this
    exact this.eq

theorem HRel.seeks [Inhabited V] (hr : Ranked rk h) (hσ : Function.Injective σ) (hl : h.length ≤ h'.length) {t t' : Tree} (ht : t'.root = σ t.root) :
    SameSeeks h t h' t' where
  lower := fun k fuel => by
    refine Both.eq ?_
    unfold iterLowerBound
    rw [ht]
    exact .bind (Both.ofPar (H.seekLowerBound hl t.root k) (hr.seekLowerBound _ _)) fun x x' hx => hx ▸ H.lbCollect fuel x
  reversePrefix := fun p fuel => by
    refine Both.eq ?_
    unfold iterReversePrefix revSeekPrefix
    rw [ht]
    refine Both.bind (Q := fun r r' => r' = r.ren σ) ?_ fun x x' hx => hx ▸ H.revCollect hσ fuel x
    refine .bind (Both.ofPar (H.seekLoop hl _ _ t.root 0) (hr.seekLoop _ _ _ _ (by omega) (by omega))) fun n n' hn => ?_
    subst hn
    exact .pure rfl
  reverseLower := fun k extra fuel => by
    refine Both.eq ?_
    unfold iterReverseLowerBound seekReverseLowerBound
    rw [ht]
    refine Both.bind (Q := fun r r' => r' = r.ren σ) ?_ fun x x' hx => hx ▸ H.revCollect hσ fuel x
    refine .bind (Both.ofPar (H.revLoop hl k _ extra _ (some t.root) 0 false [] []) (hr.revLoop _ _ _ _ _ _ _ _ _ (by omega) (by omega))) fun x x' hx => ?_
    subst hx
    exact .pure rfl
end

end Art
