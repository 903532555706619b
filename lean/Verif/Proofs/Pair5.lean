import Verif.Proofs.Pair4
/-
The rest of the functions that only read, side by side (see `Proofs/Pair.lean`): `LongestPrefix`, `Maximum`, `Walk`, the
seeks of all iterators.
-/
set_option autoImplicit false
set_option linter.unusedVariables false
set_option linter.unusedSimpArgs false
set_option linter.unusedSectionVars false
namespace Art
variable {V : Type} {σ : Addr → Addr}
variable [Lim]

section
variable {c c' : Cell V} (hc : CRel σ c c')
include hc

theorem CRel.getChild (i : Int) : Par (fun o o' => o' = o.map σ) (c.getChild i) (c'.getChild i) := by
  cases hc with
  | leaf l k => exact .ok rfl
  | inner n k => exact ren_getChild n k i

theorem CRel.getKeyAtIdx (i : Nat) : c'.getKeyAtIdx i = c.getKeyAtIdx i := by
  cases hc with
  | leaf l k => rfl
  | inner n k => rfl

theorem CRel.getLowerBoundCh (b : Byte) : Par (fun i i' => i' = i) (c.getLowerBoundCh b) (c'.getLowerBoundCh b) := by
  cases hc with
  | leaf l k => exact .ok rfl
  | inner n k =>
    have h48 : ∀ f i, Par (fun i i' => i' = i) (n.lowerBound48 f i) ((n.ren σ k).lowerBound48 f i) := by
      intro f
      induction f with
      | zero => exact fun i => .ok rfl
      | succ f ih =>
        intro i
        unfold Inner.lowerBound48
        split
        · refine .bind (.same _) fun x x' hx => ?_
          subst hx
          refine .bind (ren_getChild n k _) fun o o' ho => ?_
          subst ho
          rw [Option.isSome_map]
          split
          · exact .pure rfl
          · exact ih _
        · exact .pure rfl
    have h256 : ∀ f i, Par (fun i i' => i' = i) (n.lowerBound256 f i) ((n.ren σ k).lowerBound256 f i) := by
      intro f
      induction f with
      | zero => exact fun i => .ok rfl
      | succ f ih =>
        intro i
        unfold Inner.lowerBound256
        split
        · refine .bind (ren_getChild n k _) fun o o' ho => ?_
          subst ho
          rw [Option.isSome_map]
          split
          · exact .pure rfl
          · exact ih _
        · exact .pure rfl
    show Par _ (n.getLowerBoundCh b) ((n.ren σ k).getLowerBoundCh b)
    unfold Inner.getLowerBoundCh
    rw [show (n.ren σ k).kind = n.kind from rfl]
    cases n.kind with
    | n4 => exact .ok rfl
    | n16 => exact .ok rfl
    | n48 => exact h48 _ _
    | n256 => exact h256 _ _

theorem CRel.prefixBails (key : Key) (d : Nat) : prefixBails c' key d = prefixBails c key d := by
  cases hc with
  | leaf l k => rfl
  | inner n k => rfl

end

theorem lastIdx_map {α β : Type} (f : α → β) (p : β → Bool) (xs : List α) (i : Nat) : lastIdx (xs.map f) p i = lastIdx xs (fun x => p (f x)) i := by
  induction i with
  | zero => rfl
  | succ i ih =>
    unfold lastIdx
    rw [List.getElem?_map]
    cases xs[i]? with
    | none => exact ih
    | some x => simp only [Option.map_some]; rw [ih]

section
variable {h h' : Heap V} (H : HRel σ h h')
include H

theorem HRel.maximumAux (f f' : Nat) (hf : f ≤ f') (o : Option Addr) :
    Par (fun o o' => o' = o.map σ) (maximumAux h f o) (maximumAux h' f' (o.map σ)) := by
  induction f generalizing f' o with
  | zero =>
    cases o with
    | none => cases f' <;> exact .ok rfl
    | some a => exact .fuel _
  | succ f ih =>
    cases o with
    | none => cases f' <;> exact .ok rfl
    | some a =>
      obtain ⟨g, rfl⟩ : ∃ g, f' = g + 1 := ⟨f' - 1, by omega⟩
      have hf' : f ≤ g := by omega
      show Par _ (Art.maximumAux h (f + 1) (some a)) (Art.maximumAux h' (g + 1) (some (σ a)))
      unfold Art.maximumAux
      refine .bind (H.rd a) fun c c' hc => ?_
      cases hc with
      | leaf l k => exact .ok rfl
      | inner n k =>
        have e1 : (n.ren σ k).isLeaf = n.isLeaf := CRel.isLeaf (V := V) (.inner n k)
        have e3 : lastIdx (n.ren σ k).children (·.isSome) 256 = lastIdx n.children (·.isSome) 256 := by
          show lastIdx (n.children.map (Option.map σ)) _ _ = _
          rw [lastIdx_map]
          congr 1
          funext x
          cases x <;> rfl
        simp only [e1]
        split
        · exact .pure rfl
        · rw [show (n.ren σ k).kind = n.kind from rfl]
          cases n.kind with
          | n4 => exact .bind (ren_getChild n k _) fun o o' h => h ▸ ih g hf' o
          | n16 => exact .bind (ren_getChild n k _) fun o o' h => h ▸ ih g hf' o
          | n48 =>
            rw [show (n.ren σ k).keys = n.keys from rfl]
            dsimp only
            cases lastIdx n.keys (· != 0) 256 with
            | none => exact .error _
            | some i =>
              refine .bind (.same (n.getKeyAtIdx i)) fun b b' hb => ?_
              subst hb
              split
              · exact .bind (ren_getChild n k _) fun o o' h => h ▸ ih g hf' o
              · exact .pure rfl
          | n256 =>
            simp only [e3]
            cases lastIdx n.children (·.isSome) 256 with
            | none => exact .pure rfl
            | some i => exact .bind (ren_getChild n k _) fun o o' h => h ▸ ih g hf' o

theorem HRel.leafPair (o : Option Addr) : Par (fun r r' => r' = r) (leafPair h o) (leafPair h' (o.map σ)) := by
  cases o with
  | none => exact .ok rfl
  | some a =>
    refine .bind (H.rdLeaf a) fun l l' hl => ?_
    obtain ⟨k, rfl⟩ := hl
    exact .pure rfl

theorem HRel.treeMinimum (hl : h.length ≤ h'.length) {t t' : Tree} (ht : t'.root = σ t.root) :
    Par (fun r r' => r' = r) (treeMinimum h t) (treeMinimum h' t') := by
  unfold Art.treeMinimum
  rw [ht]
  exact .bind (H.minimum hl (some t.root)) fun o o' ho => ho ▸ H.leafPair o

theorem HRel.treeMaximum (hl : h.length ≤ h'.length) {t t' : Tree} (ht : t'.root = σ t.root) :
    Par (fun r r' => r' = r) (treeMaximum h t) (treeMaximum h' t') := by
  unfold Art.treeMaximum
  rw [ht]
  exact .bind (H.maximumAux _ _ (by omega) (some t.root)) fun o o' ho => ho ▸ H.leafPair o

theorem HRel.lpChildren (key : Key) (cs : List (Option Addr)) (last : Option Addr) :
    Par (fun o o' => o' = o.map σ) (lpChildren h key cs last) (lpChildren h' key (cs.map (Option.map σ)) (last.map σ)) := by
  induction cs generalizing last with
  | nil => exact .ok rfl
  | cons o cs ih =>
    cases o with
    | none => exact ih last
    | some a =>
      show Par _ (Art.lpChildren h key (some a :: cs) last) (Art.lpChildren h' key (some (σ a) :: cs.map (Option.map σ)) (last.map σ))
      unfold Art.lpChildren
      refine .bind (H.rd a) fun c c' hc => ?_
      rw [hc.nodeLeaf]
      cases c.nodeLeaf with
      | none => exact ih last
      | some l =>
        refine .bind (H.rdLeaf l) fun x x' hx => ?_
        obtain ⟨k, rfl⟩ := hx
        dsimp only
        split
        · exact ih (some l)
        · exact ih last

theorem HRel.lpOwn (key : Key) {c c' : Cell V} (hc : CRel σ c c') (last : Option Addr) :
    Par (fun o o' => o' = o.map σ) (lpOwn h key c last) (lpOwn h' key c' (last.map σ)) := by
  unfold Art.lpOwn
  rw [hc.nodeLeaf]
  cases c.nodeLeaf with
  | none => exact .pure rfl
  | some l =>
    refine .bind (H.rdLeaf l) fun x x' hx => ?_
    obtain ⟨k, rfl⟩ := hx
    refine .pure ?_
    dsimp only
    split <;> rfl

theorem HRel.lpLoop (key : Key) (f : Nat) (a : Addr) (d : Nat) (last : Option Addr) :
    Par (fun o o' => o' = o.map σ) (lpLoop h key f a d last) (lpLoop h' key f (σ a) d (last.map σ)) := by
  induction f generalizing a d last with
  | zero => exact .fuel _
  | succ f ih =>
    unfold Art.lpLoop
    refine .bind (H.rd a) fun c c' hc => ?_
    rw [hc.prefixBails, hc.partialLen]
    refine .bind (.same _) fun b b' hb => ?_
    subst hb
    split
    · exact .pure rfl
    · split
      · exact .pure rfl
      · refine .bind (H.lpOwn key hc last) fun o o' ho => ?_
        subst ho
        rw [hc.children]
        refine .bind (H.lpChildren key c.children o) fun o o' ho => ?_
        subst ho
        refine .bind (.same _) fun b b' hb => ?_
        subst hb
        refine .bind (hc.findChild _) fun p p' hp => ?_
        subst hp
        obtain ⟨p1, p2⟩ := p
        cases p1 with
        | none => exact .pure rfl
        | some ch => exact ih ch _ o

theorem HRel.longestPrefix {t t' : Tree} (ht : t'.root = σ t.root) (k : Key) : Par (fun r r' => r' = r) (longestPrefix h t k) (longestPrefix h' t' k) := by
  unfold Art.longestPrefix
  rw [ht]
  refine .bind (H.rd t.root) fun c c' hc => ?_
  rw [hc.nodeLeaf]
  refine .bind (H.lpLoop _ _ t.root 0 c.nodeLeaf) fun o o' ho => ?_
  subst ho
  cases o with
  | none => exact .pure rfl
  | some l =>
    refine .bind (H.rdLeaf l) fun x x' hx => ?_
    obtain ⟨k, rfl⟩ := hx
    exact .pure rfl

theorem HRel.walkChildren {rec rec' : Addr → R (List (Key × V) × Bool)} (hr : ∀ a, Par (fun r r' => r' = r) (rec a) (rec' (σ a))) (cs : List (Option Addr)) :
    Par (fun r r' => r' = r) (walkChildren rec cs) (walkChildren rec' (cs.map (Option.map σ))) := by
  induction cs with
  | nil => exact .ok rfl
  | cons o cs ih =>
    cases o with
    | none => exact ih
    | some a =>
      show Par _ (Art.walkChildren rec (some a :: cs)) (Art.walkChildren rec' (some (σ a) :: cs.map (Option.map σ)))
      unfold Art.walkChildren
      refine .bind (hr a) fun x x' hx => ?_
      subst hx
      obtain ⟨x1, x2⟩ := x'
      dsimp only
      split
      · exact .pure rfl
      · refine .bind ih fun y y' hy => ?_
        subst hy
        exact .pure rfl

theorem HRel.walkOwn [Inhabited V] {c c' : Cell V} (hc : CRel σ c c') (fn : Key → V → Bool) :
    Par (fun r r' => r' = r) (walkOwn h c fn) (walkOwn h' c' fn) := by
  unfold Art.walkOwn
  rw [hc.isLeaf, hc.nodeLeaf, hc.value]
  cases c.isLeaf with
  | false => exact .pure rfl
  | true =>
    cases c.nodeLeaf with
    | none => exact .pure rfl
    | some l =>
      refine .bind (H.rdLeaf l) fun x x' hx => ?_
      obtain ⟨k, rfl⟩ := hx
      exact .pure rfl

theorem HRel.recursiveWalk [Inhabited V] (fn : Key → V → Bool) (f f' : Nat) (hf : f ≤ f') (a : Addr) :
    Par (fun r r' => r' = r) (recursiveWalk h fn f a) (recursiveWalk h' fn f' (σ a)) := by
  induction f generalizing f' a with
  | zero => exact .fuel _
  | succ f ih =>
    obtain ⟨g, rfl⟩ : ∃ g, f' = g + 1 := ⟨f' - 1, by omega⟩
    unfold Art.recursiveWalk
    refine .bind (H.rd a) fun c c' hc => ?_
    refine .bind (H.walkOwn hc fn) fun x x' hx => ?_
    subst hx
    obtain ⟨x1, x2⟩ := x'
    dsimp only
    split
    · exact .pure rfl
    · rw [hc.children]
      refine .bind (H.walkChildren (fun a => ih g (by omega) a) c.children) fun y y' hy => ?_
      subst hy
      exact .pure rfl

theorem HRel.treeWalk [Inhabited V] (hl : h.length ≤ h'.length) {t t' : Tree} (ht : t'.root = σ t.root) (fn : Key → V → Bool) :
    Par (fun r r' => r' = r) (treeWalk h t fn) (treeWalk h' t' fn) := by
  unfold Art.treeWalk
  rw [ht]
  refine .bind (H.recursiveWalk fn _ _ (by omega) t.root) fun x x' hx => ?_
  subst hx
  exact .pure rfl

/-! ### Seeks -/

theorem HRel.seekStep (hl : h.length ≤ h'.length) (a : Addr) {c c' : Cell V} (hc : CRel σ c c') (pre : Key) (d : Nat) :
    Par (fun r r' => r' = r) (seekStep h a c pre d) (seekStep h' (σ a) c' pre d) := by
  unfold Art.seekStep
  rw [hc.isLeaf, hc.partialLen]
  split
  · refine .bind (H.prefixMismatch hl a _ _ _) fun x x' hx => ?_
    subst hx
    exact .pure rfl
  · exact .pure rfl

theorem HRel.seekLoop (hl : h.length ≤ h'.length) (pre : Key) (f : Nat) (a : Addr) (d : Nat) :
    Par (fun r r' => r' = σ r) (seekLoop h pre f a d) (seekLoop h' pre f (σ a) d) := by
  induction f generalizing a d with
  | zero => exact .fuel _
  | succ f ih =>
    unfold Art.seekLoop
    refine .bind (H.rd a) fun c c' hc => ?_
    refine .bind (H.seekStep hl a hc pre d) fun x x' hx => ?_
    subst hx
    obtain ⟨x1, x2⟩ := x'
    dsimp only
    split
    · exact .pure rfl
    · split
      · exact .pure rfl
      · refine .bind (.same _) fun b b' hb => ?_
        subst hb
        refine .bind (hc.findChild _) fun p p' hp => ?_
        subst hp
        obtain ⟨p1, p2⟩ := p
        cases p1 with
        | none => exact .pure rfl
        | some ch => exact ih ch _

theorem HRel.nodeLeafKey (a : Addr) : Par (fun r r' => r' = r) (nodeLeafKey h a) (nodeLeafKey h' (σ a)) := by
  unfold Art.nodeLeafKey
  refine .bind (H.rd a) fun c c' hc => ?_
  rw [hc.nodeLeaf]
  cases c.nodeLeaf with
  | none => exact .pure rfl
  | some l =>
    refine .bind (H.rdLeaf l) fun x x' hx => ?_
    obtain ⟨k, rfl⟩ := hx
    exact .pure rfl

theorem HRel.lbPush (path : Key) (a : Addr) (st : List (Option Addr)) :
    Par (fun r r' => r' = r.map (Option.map σ)) (lbPush h path a st) (lbPush h' path (σ a) (st.map (Option.map σ))) := by
  unfold Art.lbPush
  refine .bind (H.nodeLeafKey a) fun x x' hx => ?_
  subst hx
  cases x' with
  | none => exact .pure rfl
  | some k =>
    refine .pure ?_
    split <;> rfl

theorem HRel.lbPushParent (path : Key) (p : Option Addr) (st : List (Option Addr)) :
    Par (fun r r' => r' = r.map (Option.map σ)) (lbPushParent h path p st) (lbPushParent h' path (p.map σ) (st.map (Option.map σ))) := by
  cases p with
  | none => exact .ok rfl
  | some p =>
    show Par _ (Art.lbPushParent h path (some p) st) (Art.lbPushParent h' path (some (σ p)) _)
    unfold Art.lbPushParent
    refine .bind (H.rd p) fun c c' hc => ?_
    rw [hc.nodeLeaf]
    cases c.nodeLeaf with
    | none => exact .pure rfl
    | some l =>
      refine .bind (H.rdLeaf l) fun x x' hx => ?_
      obtain ⟨k, rfl⟩ := hx
      refine .pure ?_
      dsimp only
      split <;> rfl

theorem HRel.lbPushBoth (path : Key) (a : Addr) (p : Option Addr) (st : List (Option Addr)) :
    Par (fun r r' => r' = r.map (Option.map σ)) (lbPushBoth h path a p st) (lbPushBoth h' path (σ a) (p.map σ) (st.map (Option.map σ))) := by
  unfold Art.lbPushBoth
  refine .bind (H.lbPush path a st) fun x x' hx => ?_
  subst hx
  exact H.lbPushParent path p x

theorem HRel.lbPushChildren (path : Key) {c c' : Cell V} (hc : CRel σ c c') (lo : Nat) (strict : Bool) (k : Nat) (st : List (Option Addr)) :
    Par (fun r r' => r' = r.map (Option.map σ)) (lbPushChildren h path c lo strict k st) (lbPushChildren h' path c' lo strict k (st.map (Option.map σ))) := by
  induction k generalizing st with
  | zero => exact .ok rfl
  | succ k ih =>
    unfold Art.lbPushChildren
    split
    · exact .ok rfl
    · refine .bind (hc.getChild _) fun o o' ho => ?_
      subst ho
      cases o with
      | none =>
        dsimp only [Option.map_none]
        split
        · exact .error _
        · exact ih st
      | some ch =>
        refine .bind (H.lbPush path ch st) fun x x' hx => ?_
        subst hx
        exact ih x

theorem HRel.lbSkip (hl : h.length ≤ h'.length) (a : Addr) {c c' : Cell V} (hc : CRel σ c c') (p : Key) (seen : Bool) (d : Nat) :
    Par (fun r r' => r' = r) (lbSkip h a c p seen d) (lbSkip h' (σ a) c' p seen d) := by
  cases hc with
  | leaf l k => exact .ok rfl
  | inner n k =>
    unfold Art.lbSkip
    refine .bind (H.prefixMismatch hl a _ _ _) fun x x' hx => ?_
    subst hx
    exact .pure rfl

omit H in
theorem CRel.lbCmp {c c' : Cell V} (hc : CRel σ c c') (p : Key) (d : Nat) : lbCmp c' p d = lbCmp c p d := by
  unfold Art.lbCmp
  rw [hc.isLeaf, hc.part, hc.partialLen]

theorem HRel.lbNoChild (path : Key) (a : Addr) {c c' : Cell V} (hc : CRel σ c c') (lk : Option Key) (p : Option Addr) (st : List (Option Addr)) :
    Par (fun r r' => r' = r.map (Option.map σ)) (lbNoChild h path a c lk p st) (lbNoChild h' path (σ a) c' lk (p.map σ) (st.map (Option.map σ))) := by
  unfold Art.lbNoChild
  rw [hc.numChildren]
  cases lk with
  | none =>
    refine .bind (H.lbPushChildren path hc _ _ _ st) fun x x' hx => ?_
    subst hx
    cases p with
    | none => exact .error _
    | some p => exact H.lbPushParent path (some p) x
  | some k =>
    refine .bind (Q := fun (r r' : List (Option Addr)) => r' = r.map (Option.map σ)) (.ok ?_) fun x x' hx => ?_
    · split <;> rfl
    · subst hx
      cases p with
      | none => exact .error _
      | some p => exact H.lbPushParent path (some p) x

theorem HRel.lbTakeAll (path : Key) (a : Addr) {c c' : Cell V} (hc : CRel σ c c') (lk : Option Key) (p : Option Addr) (st : List (Option Addr)) :
    Par (fun r r' => r' = r.map (Option.map σ)) (lbTakeAll h path a c lk p st) (lbTakeAll h' path (σ a) c' lk (p.map σ) (st.map (Option.map σ))) := by
  unfold Art.lbTakeAll
  rw [hc.numChildren]
  by_cases hk : lk.any (fun k => geBytes k path) = true
  · simp only [hk, if_true]
    exact .bind (Q := fun r r' => r' = r.map (Option.map σ)) (.ok rfl) fun x x' hx => hx ▸ H.lbPushParent path p x
  · simp only [hk, if_false]
    exact .bind (H.lbPushChildren path hc _ _ _ st) fun x x' hx => hx ▸ H.lbPushParent path p x

theorem HRel.parentLeafKey (p : Option Addr) : Par (fun r r' => r' = r) (parentLeafKey h p) (parentLeafKey h' (p.map σ)) := by
  cases p with
  | none => exact .ok rfl
  | some p => exact H.nodeLeafKey p

theorem HRel.lbLoop (hl : h.length ≤ h'.length) (pre : Key) (f : Nat) (node parent : Option Addr) (d : Nat) (seen : Bool) (st : List (Option Addr)) :
    Par (fun r r' => r' = r.map (Option.map σ)) (lbLoop h pre f node parent d seen st)
      (lbLoop h' pre f (node.map σ) (parent.map σ) d seen (st.map (Option.map σ))) := by
  induction f generalizing node parent d seen st with
  | zero => exact .fuel _
  | succ f ih =>
    cases node with
    | none =>
      cases parent with
      | none => exact .ok rfl
      | some p =>
        refine .bind (H.rd p) fun c c' hc => ?_
        rw [hc.nodeLeaf]
        cases c.nodeLeaf with
        | none => exact .pure rfl
        | some l => exact .pure rfl
    | some a =>
      show Par _ (Art.lbLoop h pre (f + 1) (some a) parent d seen st) (Art.lbLoop h' pre (f + 1) (some (σ a)) _ d seen _)
      unfold Art.lbLoop
      refine .bind (H.rd a) fun c c' hc => ?_
      rw [hc.lbCmp, hc.isLeaf, hc.numChildren]
      refine .bind (.same _) fun x x' hx => ?_
      subst hx
      split
      · exact H.lbPushBoth pre a parent st
      · split
        · exact H.lbPushParent pre parent st
        · refine .bind (H.nodeLeafKey a) fun lk lk' hlk => ?_
          subst hlk
          split
          · exact H.lbPushBoth pre a parent st
          · refine .bind (H.lbSkip hl a hc pre seen d) fun x x' hx => ?_
            subst hx
            obtain ⟨stop, seen', d'⟩ := x'
            dsimp only
            split
            · exact .pure rfl
            · split
              · exact H.lbPushBoth pre a parent st
              · refine .bind (.same _) fun b b' hb => ?_
                subst hb
                refine .bind (hc.getLowerBoundCh _) fun i i' hi => ?_
                subst hi
                split
                · exact .pure rfl
                · split
                  · exact H.lbNoChild pre a hc _ parent st
                  · refine .bind (H.parentLeafKey parent) fun x x' hx => ?_
                    subst hx
                    split
                    · exact H.lbTakeAll pre a hc _ parent st
                    · refine .bind (H.lbPushChildren pre hc _ _ _ st) fun x x' hx => ?_
                      subst hx
                      rw [hc.getKeyAtIdx]
                      refine .bind (.same _) fun b b' hb => ?_
                      subst hb
                      refine .bind (hc.getChild _) fun o o' ho => ?_
                      subst ho
                      exact ih o (some a) _ _ _

theorem HRel.seekLowerBound (hl : h.length ≤ h'.length) (root : Addr) (k : Key) :
    Par (fun r r' => r' = r.map (Option.map σ)) (seekLowerBound h root k) (seekLowerBound h' (σ root) k) := by
  unfold Art.seekLowerBound
  split
  · exact .ok rfl
  · exact H.lbLoop hl _ _ (some root) none 0 false []

omit H in
theorem CRel.revCmp {c c' : Cell V} (hc : CRel σ c c') (p e : Key) (d : Nat) : revCmp c' p e d = revCmp c p e d := by
  unfold Art.revCmp
  rw [hc.part, hc.partialLen]

omit H in
theorem CRel.revPushLeaf {c c' : Cell V} (hc : CRel σ c c') (st : List (Option Addr)) :
    revPushLeaf c' (st.map (Option.map σ)) = (revPushLeaf c st).map (Option.map σ) := by
  unfold Art.revPushLeaf
  rw [hc.nodeLeaf]
  cases c.nodeLeaf <;> rfl

omit H in
theorem CRel.revLeafDone {c c' : Cell V} (hc : CRel σ c c') (lk : Option Key) (key : Key) : revLeafDone c' lk key = revLeafDone c lk key := by
  unfold Art.revLeafDone
  rw [hc.isLeaf]

theorem HRel.revSkip (hl : h.length ≤ h'.length) (a : Addr) {c c' : Cell V} (hc : CRel σ c c') (p : Key) (seen : Bool) (d : Nat) :
    Par (fun r r' => r' = r) (revSkip h a c p seen d) (revSkip h' (σ a) c' p seen d) := by
  unfold Art.revSkip
  rw [hc.partialLen]
  split
  · refine .bind (H.prefixMismatch hl a _ _ _) fun x x' hx => ?_
    subst hx
    exact .pure rfl
  · exact .ok rfl

omit H in
theorem CRel.revPick {c c' : Cell V} (hc : CRel σ c c') (p : Key) (d : Nat) (seen : Bool) :
    Par (fun r r' => r' = r) (revPick c p d seen) (revPick c' p d seen) := by
  unfold Art.revPick
  rw [hc.numChildren]
  refine .bind (.same _) fun b b' hb => ?_
  subst hb
  refine .bind (hc.getLowerBoundCh _) fun i i' hi => ?_
  subst hi
  dsimp only
  generalize (if i' = -1 ∨ d = p.length - 1 then (c.numChildren.toNat : Int) - 1 else i') = j
  split
  · rw [hc.getKeyAtIdx]
    refine .bind (.same _) fun b b' hb => ?_
    subst hb
    exact .pure rfl
  · exact .pure rfl

omit H in
theorem CRel.getChildren {c c' : Cell V} (hc : CRel σ c c') (l : List Nat) :
    Par (fun r r' => r' = r.map (Option.map σ)) (l.mapM fun (i : Nat) => c.getChild i) (l.mapM fun (i : Nat) => c'.getChild i) := by
  induction l with
  | nil => exact .ok rfl
  | cons i l ih =>
    rw [List.mapM_cons, List.mapM_cons]
    refine .bind (hc.getChild _) fun o o' ho => ?_
    subst ho
    refine .bind ih fun x x' hx => ?_
    subst hx
    exact .pure rfl

theorem HRel.revLoop (hl : h.length ≤ h'.length) (key pre e : Key) (f : Nat) (node : Option Addr) (d : Nat) (seen : Bool) (st : List (Option Addr)) (ex : List Addr) :
    Par (fun r r' => r' = (r.1.map (Option.map σ), r.2.map σ)) (revLoop h key pre e f node d seen st ex)
      (revLoop h' key pre e f (node.map σ) d seen (st.map (Option.map σ)) (ex.map σ)) := by
  induction f generalizing node d seen st ex with
  | zero => exact .fuel _
  | succ f ih =>
    cases node with
    | none => exact .ok rfl
    | some a =>
      show Par _ (Art.revLoop h key pre e (f + 1) (some a) d seen st ex) (Art.revLoop h' key pre e (f + 1) (some (σ a)) d seen _ _)
      unfold Art.revLoop
      refine .bind (H.rd a) fun c c' hc => ?_
      rw [hc.revCmp, hc.nodeLeaf, hc.numChildren, hc.revPushLeaf]
      refine .bind (.same _) fun x x' hx => ?_
      subst hx
      split
      · exact .pure rfl
      · split
        · exact .pure rfl
        · refine .bind (H.nodeLeafKey a) fun lk lk' hlk => ?_
          subst hlk
          rw [hc.revLeafDone]
          refine .bind (.same _) fun x x' hx => ?_
          subst hx
          split
          · exact .pure rfl
          · refine .bind (H.revSkip hl a hc pre seen d) fun x x' hx => ?_
            subst hx
            obtain ⟨stop, seen', d'⟩ := x'
            dsimp only
            split
            · exact .pure rfl
            · split
              · exact .pure rfl
              · refine .bind (hc.revPick pre d' seen') fun x x' hx => ?_
                subst hx
                obtain ⟨i0, seen2⟩ := x'
                dsimp only
                generalize (if seen2 = true then (c.numChildren.toNat : Int) - 1 else i0) = j
                refine .bind (hc.getChildren _) fun x x' hx => ?_
                subst hx
                have e1 : ((x.map (Option.map σ)).filterMap (fun (o : Option Addr) => o.map some)).reverse =
                    ((x.filterMap (fun (o : Option Addr) => o.map some)).reverse).map (Option.map σ) := by
                  rw [List.map_reverse, List.filterMap_map, List.map_filterMap]
                  congr 1
                  refine filterMap_same x fun o => ?_
                  cases o <;> rfl
                have e2 : (if (c.nodeLeaf.map σ).isSome = true then some (σ a) :: st.map (Option.map σ) else st.map (Option.map σ)) =
                    (if c.nodeLeaf.isSome = true then some a :: st else st).map (Option.map σ) := by
                  rw [Option.isSome_map]
                  split <;> rfl
                rw [e1, e2, ← List.map_append]
                split
                · exact .pure rfl
                · refine .bind (hc.getChild _) fun o o' ho => ?_
                  subst ho
                  exact ih o _ _ _ (a :: ex)
end

end Art
