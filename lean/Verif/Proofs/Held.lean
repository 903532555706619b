import Verif.Proofs.Handle2
import Verif.Proofs.Congr3
import Verif.Proofs.Snapshot
/-
Sequences of calls on an iterator depend only on the nodes of the tree, up to channels.
-/
set_option autoImplicit false
set_option linter.unusedVariables false
set_option linter.unusedSimpArgs false
set_option linter.unusedSectionVars false
namespace Art
variable {V : Type} {h h' : Heap V} {S : Addr → Prop}

theorem fwdCalls_congr (hs : Same h h' S) (hl : h.length ≤ h'.length) (fuel : Nat) (cs : List FwdCall) (it : Iter) (hi : it.In S) :
    CR (fun p => p.2.In S) (fwdCalls h' fuel it cs) (fwdCalls h fuel it cs) := by
  induction cs generalizing it with
  | nil => exact CR.ok hi
  | cons c cs ih =>
    cases c with
    | seek p => exact CR.bind (P := fun r : Iter × Addr => r.1.In S) ⟨(seekPrefix_congr hs hl it hi p).1, fun r hr => ((seekPrefix_congr hs hl it hi p).2 r hr).1⟩ fun r hr => ih r.1 hr
    | next =>
      refine CR.bind (P := fun r : Option (Key × V) × Iter => r.2.In S) (iterNext_congr hs fuel it hi) fun r hr => ?_
      exact CR.bind (ih r.2 hr) fun q hq => CR.pure hq

/-- The nodes a lower bound iterator holds are in the set. -/
def LowIter.In (S : Addr → Prop) (it : LowIter) : Prop := (∀ a, it.node = some a → S a) ∧ StackIn S it.stack

theorem lowLoop_congr (hs : Same h h' S) (hl : h.length ≤ h'.length) (pre : Key) (n : Nat) (node parent : Option Addr)
    (d : Nat) (seen : Bool) {st : List (Option Addr)} (hn : ∀ a, node = some a → S a) (hp : ∀ a, parent = some a → S a)
    (hst : StackIn S st) :
    CR (fun p => StackIn S p.1) (lowLoop h' pre n node parent d seen st) (lowLoop h pre n node parent d seen st) := by
  have tag : ∀ {x' x : R (List (Option Addr))} (b : Bool), CR (StackIn S) x' x →
      CR (fun p : List (Option Addr) × Bool => StackIn S p.1) (do let s ← x'; pure (s, b)) (do let s ← x; pure (s, b)) :=
    fun b hx => CR.bind hx fun _ h => CR.pure h
  induction n generalizing node parent d seen st with
  | zero => rw [lowLoop.eq_def, lowLoop.eq_def]; exact CR.error
  | succ n ih =>
    rw [lowLoop.eq_def, lowLoop.eq_def]
    simp only
    cases node with
    | none =>
      cases parent with
      | none => exact CR.ok hst
      | some p =>
        refine hs.cr_rd (hp p rfl) fun c k hc => ?_
        rw [Cell.nodeLeaf_setCh]
        cases hnl : c.nodeLeaf with
        | none => exact CR.pure hst
        | some l => exact CR.pure (P := fun p : List (Option Addr) × Bool => StackIn S p.1) (hst.cons (hc l (.inl hnl)))
    | some a =>
      have ha := hn a rfl
      refine hs.cr_rd ha fun c k hc => ?_
      simp only [Cell.isLeaf_setCh, lbCmp_setCh, Cell.getLowerBoundCh_setCh,
        Cell.numChildren_setCh, Cell.getKeyAtIdx_setCh, Cell.getChild_setCh]
      refine CR.bind (CR.of_eq rfl) fun pc _ => ?_
      refine CR.ite (fun _ => tag _ (lbPushBoth_congr hs pre ha hp hst)) fun _ => ?_
      refine CR.ite (fun _ => tag _ (lbPushParent_congr hs pre hp hst)) fun _ => ?_
      refine CR.bind (CR.of_eq (nodeLeafKey_congr hs ha)) fun lk _ => ?_
      refine CR.ite (fun _ => tag _ (lbPushBoth_congr hs pre ha hp hst)) fun _ => ?_
      refine CR.bind (lbSkip_congr hs hl ha c k pre seen d) fun p _ => ?_
      obtain ⟨stop, seen, d⟩ := p
      simp only
      refine CR.ite (fun _ => CR.pure hst) fun _ => ?_
      refine CR.ite (fun _ => tag _ (lbPushBoth_congr hs pre ha hp hst)) fun _ => ?_
      refine CR.bind (CR.of_eq rfl) fun b _ => ?_
      refine CR.bind (CR.of_eq rfl) fun idx0 _ => ?_
      refine CR.ite (fun _ => CR.pure hst) fun _ => ?_
      refine CR.ite (fun _ => tag _ (lbNoChild_congr hs pre ha c k hc lk hp hst)) fun _ => ?_
      refine CR.bind (CR.of_eq (parentLeafKey_congr hs hp)) fun pl _ => ?_
      refine CR.ite (fun _ => tag _ (lbTakeAll_congr hs pre ha c k hc lk hp hst)) fun _ => ?_
      refine CR.bind (lbPushChildren_congr hs pre c k hc _ _ _ hst) fun st' hst' => ?_
      refine CR.bind (CR.of_eq rfl) fun kb _ => ?_
      refine CR.bind (CR.refl _) fun child hch => ?_
      exact ih _ _ _ _ (fun b hb => by subst hb; exact hc b (Cell.getChild_pts hch))
        (fun b hb => by cases hb; exact ha) hst'

theorem lowSeek_congr (hs : Same h h' S) (hl : h.length ≤ h'.length) (it : LowIter) (hi : it.In S) (q : Key) :
    CR (LowIter.In S) (lowSeek h' it q) (lowSeek h it q) := by
  unfold lowSeek
  refine CR.ite (fun _ => CR.ok ⟨hi.1, fun a ha => ?_⟩) fun _ => ?_
  · exact hi.1 a (List.mem_singleton.1 ha).symm
  · refine CR.bind (lowLoop_congr hs hl _ _ _ _ _ _ hi.1 (fun b hb => by cases hb) (fun a ha => by cases ha)) fun r hr => ?_
    refine CR.pure ⟨fun a ha => ?_, hr⟩
    dsimp only at ha
    split at ha
    · cases ha
    · exact hi.1 a ha

theorem lowCalls_congr (hs : Same h h' S) (hl : h.length ≤ h'.length) (fuel : Nat) (cs : List LowCall) (it : LowIter) (hi : it.In S) :
    CR (fun p => p.2.In S) (lowCalls h' fuel it cs) (lowCalls h fuel it cs) := by
  induction cs generalizing it with
  | nil => exact CR.ok hi
  | cons c cs ih =>
    cases c with
    | seek q => exact CR.bind (lowSeek_congr hs hl it hi q) fun r hr => ih r hr
    | next =>
      refine CR.bind (P := fun r : Option (Key × V) × List (Option Addr) => StackIn S r.2) (lbNext_congr hs fuel it.stack hi.2) fun r hr => ?_
      exact CR.bind (ih ⟨it.node, r.2⟩ ⟨hi.1, hr⟩) fun q hq => CR.pure hq

theorem revCalls_congr (hs : Same h h' S) (hl : h.length ≤ h'.length) (fuel : Nat) (cs : List RevCall) (it : RevIter) (hi : it.In S) :
    CR (fun p => p.2.In S) (revCalls h' fuel it cs) (revCalls h fuel it cs) := by
  induction cs generalizing it with
  | nil => exact CR.ok hi
  | cons c cs ih =>
    cases c with
    | seekPrefix p => exact CR.bind (revSeekPrefix_congr hs hl hi p) fun r hr => ih r hr
    | seekLower q x => exact CR.bind (seekReverseLowerBound_congr hs hl hi q x) fun r hr => ih r hr
    | previous =>
      refine CR.bind (revPrevious_congr hs fuel hi) fun r hr => ?_
      exact CR.bind (ih r.2 hr) fun q hq => CR.pure hq

/-! ### One call after the other -/

/-- A sequence of calls is its first call and then the others. -/
def Unrolls {σ κ α : Type} (calls : Heap V → σ → List κ → R (List α × σ)) : Prop :=
  (∀ h it, calls h it [] = .ok ([], it)) ∧
  ∀ h it c cs, calls h it (c :: cs) = (do
    let r ← calls h it [c]
    let q ← calls h r.2 cs
    pure (r.1 ++ q.1, q.2))

theorem fwdCalls_unrolls (fuel : Nat) : Unrolls fun (h : Heap V) it cs => fwdCalls h fuel it cs :=
  ⟨fun _ _ => rfl, fun h it c cs => fwdCalls_append fuel [c] cs it⟩

theorem lowCalls_unrolls (fuel : Nat) : Unrolls fun (h : Heap V) it cs => lowCalls h fuel it cs := by
  refine ⟨fun _ _ => rfl, fun h it c cs => ?_⟩
  cases c with
  | seek q =>
    simp only [lowCalls]
    cases lowSeek h it q with
    | error e => rfl
    | ok r =>
      simp only [bind, Except.bind]
      cases lowCalls h fuel r cs <;> rfl
  | next =>
    simp only [lowCalls]
    cases lbNext h fuel it.stack with
    | error e => rfl
    | ok r =>
      simp only [bind, Except.bind, pure, Except.pure]
      cases lowCalls h fuel { it with stack := r.2 } cs <;> rfl

theorem revCalls_unrolls (fuel : Nat) : Unrolls fun (h : Heap V) it cs => revCalls h fuel it cs := by
  refine ⟨fun _ _ => rfl, fun h it c cs => ?_⟩
  cases c with
  | seekPrefix p =>
    simp only [revCalls]
    cases revSeekPrefix h it p with
    | error e => rfl
    | ok r =>
      simp only [bind, Except.bind]
      cases revCalls h fuel r cs <;> rfl
  | seekLower q x =>
    simp only [revCalls]
    cases seekReverseLowerBound h it q x with
    | error e => rfl
    | ok r =>
      simp only [bind, Except.bind]
      cases revCalls h fuel r cs <;> rfl
  | previous =>
    simp only [revCalls]
    cases revPrevious h fuel it with
    | error e => rfl
    | ok r =>
      simp only [bind, Except.bind, pure, Except.pure]
      cases revCalls h fuel r.2 cs <;> rfl

theorem overCalls_eq {σ κ α : Type} {calls : Heap V → σ → List κ → R (List α × σ)} (hu : Unrolls calls) {In : σ → Prop} {h0 : Heap V}
    (l : List (Heap V × κ)) (hc : ∀ x ∈ l, ∀ it, In it → CR (fun p => In p.2) (calls x.1 it [x.2]) (calls h0 it [x.2])) (it : σ) (hi : In it) :
    overCalls calls it l = calls h0 it (l.map Prod.snd) := by
  induction l generalizing it with
  | nil => exact (hu.1 _ _).symm
  | cons x l ih =>
    obtain ⟨e1, e2⟩ := hc x (List.mem_cons_self ..) it hi
    rw [List.map_cons, hu.2]
    show (do let r ← calls x.1 it [x.2]; _) = _
    rw [e1]
    cases hr : calls h0 it [x.2] with
    | error e => rfl
    | ok r =>
      show (do let q ← overCalls calls r.2 l; _) = (do let q ← calls h0 r.2 (l.map Prod.snd); _)
      rw [ih (fun y hy => hc y (List.mem_cons_of_mem _ hy)) r.2 (e2 r hr)]

/-- Calls on iterators in heaps that agree on the nodes of the tree. -/
theorem held_calls {h0 : Heap V} {S : Addr → Prop} {P : Heap V → Prop} (same : ∀ h, P h → Same h0 h S ∧ h0.length ≤ h.length) {a : Addr} (hroot : S a) (fuel : Nat) :
    (∀ l : List (Heap V × FwdCall), (∀ x ∈ l, P x.1) →
      overCalls (fun h it cs => fwdCalls h fuel it cs) (mkIter a) l = fwdCalls h0 fuel (mkIter a) (l.map Prod.snd)) ∧
    (∀ l : List (Heap V × LowCall), (∀ x ∈ l, P x.1) →
      overCalls (fun h it cs => lowCalls h fuel it cs) (mkLowIter a) l = lowCalls h0 fuel (mkLowIter a) (l.map Prod.snd)) ∧
    (∀ l : List (Heap V × RevCall), (∀ x ∈ l, P x.1) →
      overCalls (fun h it cs => revCalls h fuel it cs) (mkRevIter a) l = revCalls h0 fuel (mkRevIter a) (l.map Prod.snd)) := by
  refine ⟨fun l hm => ?_, fun l hm => ?_, fun l hm => ?_⟩
  · exact overCalls_eq (fwdCalls_unrolls fuel) (In := Iter.In S) l
      (fun x hx it hi => fwdCalls_congr (same _ (hm x hx)).1 (same _ (hm x hx)).2 fuel [x.2] it hi) _ (mkIter_in hroot)
  · exact overCalls_eq (lowCalls_unrolls fuel) (In := LowIter.In S) l
      (fun x hx it hi => lowCalls_congr (same _ (hm x hx)).1 (same _ (hm x hx)).2 fuel [x.2] it hi) _
      ⟨fun a h => by cases h; exact hroot, fun a h => by cases h⟩
  · exact overCalls_eq (revCalls_unrolls fuel) (In := RevIter.In S) l
      (fun x hx it hi => revCalls_congr (same _ (hm x hx)).1 (same _ (hm x hx)).2 fuel [x.2] it hi) _ (mkRevIter_in hroot)

end Art
