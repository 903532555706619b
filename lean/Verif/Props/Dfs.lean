import Verif.Proofs.Dfs
import Verif.Proofs.Lineage
import Verif.Props.Readers
import Verif.Props.CleanTidy
import Verif.Props.Calm
/-
C64: DFS visits the nodes of the tree.
-/
set_option autoImplicit false
set_option linter.unusedSectionVars false
namespace Art
variable {V : Type} [Inhabited V]

/-- C64: `DFS` calls the function exactly once for every node of the tree, the root first.  (The nodes of a tree are those that a
search can come to.) -/
def C64_Full (V : Type) [Inhabited V] : Prop := ∀ ops : List (Op V), Ordinary ops → ∀ i t, treeAfter ops i = some t →
  ∃ l, treeDFS (heapAfter ops) t = .ok l ∧ l.head? = some t.root ∧ l.Nodup ∧ ∀ a, a ∈ l ↔ Leads (heapAfter ops) t.root a

/-- The root of the tree with fifty keys, and its child for byte 89. -/
def fanRoot : Inner := match (heapAfter fanOps)[(treeOf fanOps 50).root]? with | some (.inner n) => n | _ => default
def fanLast : Nat := match fanRoot.findChild 89 with | .ok (some c, _) => c | _ => 0
theorem fan_leads : Leads (heapAfter fanOps) (treeOf fanOps 50).root fanLast :=
  Leads.here.step (n := fanRoot) (x := 89) (i := 89) (by decide +kernel) (by decide +kernel)
theorem fan_missed : ((treeDFS (heapAfter fanOps) (treeOf fanOps 50)).toOption.getD []).contains fanLast = false := by decide +kernel

/-- In a `Node256` with 50 children only the first 50 of the 256 slots are looked at. -/
theorem C64_false : ¬ C64_Full Nat := fun h => by
  obtain ⟨l, h1, -, -, h2⟩ := h fanOps ⟨by decide +kernel, by decide +kernel⟩ 50 (treeOf fanOps 50) (by decide +kernel)
  have hc := (h2 fanLast).2 fan_leads
  have h3 := fan_missed
  generalize treeDFS (heapAfter fanOps) (treeOf fanOps 50) = r at h1 h3
  subst h1
  rw [show ((Except.ok l : R (List Nat)).toOption.getD []) = l from rfl, List.contains_eq_mem, decide_eq_false_iff_not] at h3
  exact h3 hc

/-- C64 on broad histories, for trees with a key in which no node needs more than 12 children.  If the tree never lost a key since it
was last empty, 37 children are allowed.  (Missing for the full statement: in a `Node256`, and in a `Node48` from which children were
removed, `DFS` looks at the wrong slots, see `C64_false` and `C64_cut`.) -/
theorem C64_partial (ops : List (Op V)) (hc : Broad ops) (i : Nat) (t : Tree) (m : Map V) (ht : treeAfter ops i = some t)
    (hm : mapAfter ops i = some m) (hne : m ≠ []) (hw : m.Narrow 12 ∨ Uncut ops i ∧ m.Narrow 37) :
    ∃ l, treeDFS (heapAfter ops) t = .ok l ∧ l.head? = some t.root ∧ l.Nodup ∧ ∀ a, a ∈ l ↔ Leads (heapAfter ops) t.root a := by
  rcases hw with hw | ⟨hu, hw⟩
  · obtain ⟨E, N, hr, ha⟩ := (hc.view ht hm).entries hne
    obtain ⟨l, h1, h2, h3⟩ := hr.dfs fun x hx n hn hlf => by
      have h4 := hr.narrow (ha.narrow hr hw) x hx n hn hlf
      exact ⟨fun h => absurd (h4.2.2 h) (by omega), fun h => absurd (h4.2.1 h) (by omega)⟩
    exact ⟨l, h3 _ (Nat.le_succ_of_le hr.lengthN), h2, h1.nodup_iff.2 hr.nodupN, fun a => (h1.mem_iff).trans (hr.leads a)⟩
  · letI : Removals := ⟨False⟩
    obtain ⟨E, N, hr, ha⟩ := (hc.uncut hu ht hm).entries hne
    obtain ⟨l, h1, h2, h3⟩ := hr.dfs fun x hx n hn hlf => by
      have h4 := hr.narrow (ha.narrow hr hw) x hx n hn hlf
      exact ⟨fun h => absurd (h4.2.2 h) (by omega), fun _ => hr.tidyNodes (fun h => h) x hx n hn hlf⟩
    exact ⟨l, h3 _ (Nat.le_succ_of_le hr.lengthN), h2, h1.nodup_iff.2 hr.nodupN, fun a => (h1.mem_iff).trans (hr.leads a)⟩

-- the tree of demo5 has five keys, some of them prefixes of others
example : ∃ l, treeDFS (heapAfter demo5) (treeOf demo5 5) = .ok l ∧ l.Nodup ∧ l.length = 6 := by
  obtain ⟨l, h1, -, h2, -⟩ := C64_partial demo5 (.of_loose (by decide +kernel)) 5 (treeOf demo5 5) demo5Map
    (by decide +kernel) (by decide +kernel) (by decide) (.inl (.of_length (by decide)))
  have h3 : ((treeDFS (heapAfter demo5) (treeOf demo5 5)).toOption.getD []).length = 6 := by decide +kernel
  rw [h1] at h3
  exact ⟨l, h1, h2, h3⟩

/-- Twenty keys with different first bytes, and the first one deleted. -/
def holeOps : List (Op Nat) := inserts ((List.range 20).map fun (i : Nat) => ([UInt8.ofNat (40 + i)], i)) ++ [.delete 20 [40]]

/-- The `Node48` has 19 children left, in the slots from 1 to 19; `DFS` looks at those from 0 to 18.  So a tree with more than 12
children to a node must not have lost a key. -/
theorem C64_cut : Broad holeOps ∧ ((treeDFS (heapAfter holeOps) (treeOf holeOps 20)).toOption.getD []).length = 21 ∧
    ((treeDFS (heapAfter holeOps) (treeOf holeOps 21)).toOption.getD []).length = 19 :=
  ⟨.of_loose (by decide +kernel), by decide +kernel, by decide +kernel⟩

theorem dfsNode_reach {h : Heap V} {r : Addr} (fuel : Nat) : ∀ (b : Addr) (l : List Addr), Reach h r b → dfsNode h fuel b = .ok l →
    l.head? = some b ∧ ∀ a ∈ l, Reach h r a := by
  induction fuel with
  | zero => intro b l _ h; cases h
  | succ n ih =>
    intro b l hb hd
    unfold dfsNode at hd
    obtain ⟨c, hc, hd⟩ := R.bind_ok hd
    obtain ⟨l', hl', hd⟩ := R.bind_ok hd
    cases hd
    have key : ∀ (is : List Nat) l', dfsChildren (dfsNode h n) c is = .ok l' → ∀ a ∈ l', Reach h r a := by
      intro is
      induction is with
      | nil => intro l' hl'; cases hl'; nofun
      | cons i is ihl =>
        intro l' hl'
        unfold dfsChildren at hl'
        obtain ⟨o, ho, hl'⟩ := R.bind_ok hl'
        cases o with
        | none => exact ihl l' hl'
        | some d =>
          obtain ⟨l1, h1, hl'⟩ := R.bind_ok hl'
          obtain ⟨l2, h2, hl'⟩ := R.bind_ok hl'
          cases hl'
          intro a ha
          rcases List.mem_append.1 ha with ha | ha
          · refine (ih d l1 ?_ h1).2 a ha
            cases c with
            | leaf l => cases ho
            | inner n => exact hb.child (rd_ok hc) (Inner.mem_getChild ho)
          · exact ihl l2 h2 a ha
    refine ⟨rfl, fun a ha => ?_⟩
    rcases List.mem_cons.1 ha with rfl | ha
    · exact hb
    · exact key _ _ hl' a ha

/-- C64 in every history, with panics and misuse of any sort: every node for which `DFS` calls the function belongs to the tree, and the
root comes first. -/
theorem C64_sound_partial (ops : List (Op V)) (t : Tree) (l : List Addr) (h : treeDFS (heapAfter ops) t = .ok l) :
    l.head? = some t.root ∧ ∀ a ∈ l, Reach (heapAfter ops) t.root a := dfsNode_reach _ _ _ .root h

end Art
