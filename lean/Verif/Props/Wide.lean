import Verif.Proofs.Wide
import Verif.Props.Clean
/-
C42: nodes with many children.  With 255 children everything is as it should be; with 256 the `uint8` that counts
them is 0 again, and the next deletion below one of them loses all keys.
-/
set_option autoImplicit false
set_option linter.unusedSectionVars false
namespace Art
variable {V : Type} [Inhabited V]

/-- C42 for keys that leave one next byte unused after every prefix (`room`). -/
theorem C42_partial (l : List (Key × V)) (hn : (l.map (·.1)).Nodup) (hp : ∀ e ∈ l, ∀ f ∈ l, e.1 <+: f.1 → e = f)
    (hroom : ∀ Q : Key, ∃ b : Byte, ∀ e ∈ l, ¬ Q ++ [b] <+: e.1 ++ [36]) (hsz : l.length < 2 ^ 63 - 1) :
    let w := (execAll World.init (inserts l)).2
    ∀ e ∈ l, (exec w (.get l.length e.1)).1 = .value (some e.2) ∧ ∀ d ∈ l, d ≠ e →
      (∀ v, (exec (exec w (.insert l.length d.1 v)).2 (.get (l.length + 1) e.1)).1 = .value (some e.2)) ∧
      (exec (exec w (.delete l.length d.1)).2 (.get (l.length + 1) e.1)).1 = .value (some e.2) := by
  intro w e he
  have hhas : ∀ k, Map.has l k → ∃ e ∈ l, e.1 = k := fun k ⟨v, hv⟩ => ⟨_, hv, rfl⟩
  have hcomp : Map.Compatible l := by
    refine ⟨fun k k' hk hk' h => ?_, fun Q => ?_, by omega⟩
    · obtain ⟨x, hx, rfl⟩ := hhas k hk
      obtain ⟨y, hy, rfl⟩ := hhas k' hk'
      have := hp y hy x hx ((List.prefix_append _ _).trans h)
      subst this
      have := h.length_le
      simp at this
      omega
    · obtain ⟨b, hb⟩ := hroom Q
      refine ⟨b, fun k hk => ?_⟩
      obtain ⟨x, hx, rfl⟩ := hhas k hk
      exact hb x hx
  have hn' : (l.reverse.map (·.1)).Nodup := by rw [List.map_reverse]; exact (List.reverse_perm _).nodup_iff.2 hn
  obtain ⟨h1, h2⟩ := inserts_spec' l hn
  have hlen : (specAfter (inserts l)).trees.length = l.length + 1 := by
    have := (inserts_spec l.reverse hn').1
    rwa [List.reverse_reverse, List.length_reverse] at this
  have hc := h2 hcomp
  have hget : Map.get l.reverse e.1 = some e.2 := Map.get_some hn' (List.mem_reverse.2 he)
  have h1' : (specAfter (inserts l)).trees[l.length]? = some l.reverse := h1
  have hcomp' : Map.Compatible l.reverse := hcomp.perm (List.reverse_perm l).symm
  have hlast : ∀ (op : Op V) (m : Map V), op.Clean (specAfter (inserts l)) → (sexec (specAfter (inserts l)) op).2.trees = (specAfter (inserts l)).trees ++ [m] →
      m.get e.1 = some e.2 → (exec (exec w op).2 (.get (l.length + 1) e.1)).1 = .value (some e.2) := fun op m hop hs hm => by
    have hc2 := hc.snoc hop
    have hw : (exec w op).2 = worldAfter (inserts l ++ [op]) := (execAll_snoc _ _ _).symm
    rw [hw, hc2.out (op := .get _ _) ⟨rfl, trivial⟩ rfl]
    have : (specAfter (inserts l ++ [op])).trees[l.length + 1]? = some m := by
      rw [specAfter, sexecAll_snoc, hs]
      simp [hlen]
    simp only [sexec, this, hm]
  refine ⟨?_, fun d hd hde => ⟨fun v => ?_, ?_⟩⟩
  · rw [hc.out (op := .get _ _) ⟨rfl, trivial⟩ rfl]
    simp only [sexec, h1', hget]
  · have hke : e.1 ≠ d.1 := fun h => hde (hp d hd e he (by rw [h]; exact List.prefix_refl _))
    refine hlast _ (Map.set l.reverse d.1 v) ⟨rfl, fun m hm => ?_⟩ (by simp only [sexec, h1']) ?_
    · rw [h1'] at hm; cases hm
      have hdm : Map.has l.reverse d.1 := ⟨d.2, List.mem_reverse.2 hd⟩
      refine ⟨fun k' hk' => ⟨hcomp'.dollar _ _ hdm hk', hcomp'.dollar _ _ hk' hdm⟩, fun P => ?_, fun _ k' hk' h => ?_, by simpa using hsz⟩
      · obtain ⟨b, hb⟩ := hcomp'.room P
        exact ⟨b, hb _ hdm, hb⟩
      · obtain ⟨x, hx, rfl⟩ := hhas k' (Map.has_reverse.1 hk')
        rw [hp d hd x hx h]
    · rw [Map.get_set, if_neg hke, hget]
  · have hke : e.1 ≠ d.1 := fun h => hde (hp d hd e he (by rw [h]; exact List.prefix_refl _))
    refine hlast _ (Map.del l.reverse d.1) ⟨rfl, fun m hm => ?_⟩ (by simp only [sexec, h1']) ?_
    · rw [h1'] at hm; cases hm
      exact Or.inl ⟨d.2, List.mem_reverse.2 hd⟩
    · rw [Map.get_del, if_neg hke, hget]

/-- In particular, up to 255 different bytes after a common prefix. -/
theorem C42_fan_partial (P : Key) (l : List (Byte × V)) (hn : (l.map (·.1)).Nodup) (hlen : l.length ≤ 255) (w : World V)
    (hw : w = (execAll World.init (inserts (l.map fun e => (P ++ [e.1], e.2)))).2) (e : Byte × V) (he : e ∈ l) :
    (exec w (.get l.length (P ++ [e.1]))).1 = .value (some e.2) ∧ ∀ d ∈ l, d ≠ e →
      (∀ v, (exec (exec w (.insert l.length (P ++ [d.1]) v)).2 (.get (l.length + 1) (P ++ [e.1]))).1 = .value (some e.2)) ∧
      (exec (exec w (.delete l.length (P ++ [d.1]))).2 (.get (l.length + 1) (P ++ [e.1]))).1 = .value (some e.2) := by
  have hn' : ((l.map fun e => (P ++ [e.1], e.2)).map (·.1)).Nodup := by
    rw [List.Nodup, List.map_map, List.pairwise_map]
    rw [List.Nodup, List.pairwise_map] at hn
    exact hn.imp fun {x y} h h2 => h (snoc2 h2).2
  have hinj : ∀ x ∈ l, ∀ y ∈ l, x.1 = y.1 → x = y := fun x hx y hy h => by
    obtain ⟨b, v⟩ := x; obtain ⟨b', v'⟩ := y
    simp only at h; subst h
    have h1 := (Map.get_iff (m := l.map fun e : Byte × V => (P ++ [e.1], e.2)) hn').2 (List.mem_map.2 ⟨_, hx, rfl⟩)
    have h2 := (Map.get_iff (m := l.map fun e : Byte × V => (P ++ [e.1], e.2)) hn').2 (List.mem_map.2 ⟨_, hy, rfl⟩)
    rw [h1] at h2; cases h2; rfl
  have hc := wide_compatible P l hn (by omega)
  have := C42_partial (l.map fun e => (P ++ [e.1], e.2)) hn' (fun x hx y hy h => by
    obtain ⟨x, hx', rfl⟩ := List.mem_map.1 hx
    obtain ⟨y, hy', rfl⟩ := List.mem_map.1 hy
    have h2 := h.eq_of_length (by simp)
    rw [hinj x hx' y hy' (snoc2 h2).2]) (fun Q => by
      obtain ⟨b, hb⟩ := hc.room Q
      exact ⟨b, fun x hx => hb x.1 ⟨x.2, hx⟩⟩) (by rw [List.length_map]; exact Nat.lt_of_le_of_lt hlen (by decide))
  simp only [List.length_map, ← hw] at this
  obtain ⟨g1, g2⟩ := this _ (List.mem_map.2 ⟨e, he, rfl⟩)
  exact ⟨g1, fun d hd hde => g2 (P ++ [d.1], d.2) (List.mem_map.2 ⟨d, hd, rfl⟩) fun h => hde (hinj d hd e he (by
    rw [Prod.mk.injEq] at h; exact (snoc2 h.1).2))⟩

/-- The first 60 bytes after `"foo"`. -/
def fan : List (Byte × Nat) := (List.range 60).map fun i => (UInt8.ofNat i, i)

example : (exec (exec (execAll World.init (inserts (fan.map fun e => (kFoo ++ [e.1], e.2)))).2 (.delete 60 (kFoo ++ [38]))).2 (.get 61 (kFoo ++ [37]))).1 = .value (some 37) :=
  ((C42_fan_partial kFoo fan (by decide +kernel) (by decide +kernel) _ rfl (37, 37) (by decide +kernel)).2 (38, 38) (by decide +kernel) (by decide)).2

/-! ### 256 children -/

/-- 256 keys with 255 different first bytes. -/
def wide : List (Key × Nat) := ([0, 1], 0) :: ([0, 2], 0) :: (List.range 254).map fun i => ([UInt8.ofNat (i + 1)], 0)

/-- The same, and the key `[255]`. -/
def wider : List (Key × Nat) := wide ++ [([255], 0)]

theorem wider_mem {e : Key × Nat} (he : e ∈ wider) : e.2 = 0 ∧ (e.1 = [0, 1] ∨ e.1 = [0, 2] ∨ ∃ b : Byte, b ≠ 0 ∧ e.1 = [b]) := by
  rcases List.mem_append.1 he with he | he
  · rcases List.mem_cons.1 he with rfl | he
    · exact ⟨rfl, Or.inl rfl⟩
    · rcases List.mem_cons.1 he with rfl | he
      · exact ⟨rfl, Or.inr (Or.inl rfl)⟩
      · obtain ⟨i, hi, rfl⟩ := List.mem_map.1 he
        refine ⟨rfl, Or.inr (Or.inr ⟨_, fun h => ?_, rfl⟩)⟩
        have h := congrArg UInt8.toNat h
        rw [toNat_ofNat (by have := List.mem_range.1 hi; omega)] at h
        cases h
  · rw [List.mem_singleton.1 he]
    exact ⟨rfl, Or.inr (Or.inr ⟨255, by decide, rfl⟩)⟩

theorem wide_byte {b : Byte} (h0 : b ≠ 0) (h1 : b ≠ 255) : Map.has wide [b] := by
  have h2 : b.toNat ≠ 0 := fun h => h0 (UInt8.toNat_inj.1 h)
  have h3 : b.toNat ≠ 255 := fun h => h1 (UInt8.toNat_inj.1 h)
  have := b.toNat_lt
  refine ⟨0, List.mem_cons_of_mem _ (List.mem_cons_of_mem _ (List.mem_map.2 ⟨b.toNat - 1, List.mem_range.2 (by omega), ?_⟩))⟩
  rw [show b.toNat - 1 + 1 = b.toNat by omega, UInt8.ofNat_toNat]

theorem wide_255 {e : Key × Nat} (he : e ∈ wide) : (255 : Byte) ∉ e.1 := by
  rcases List.mem_cons.1 he with rfl | he
  · decide
  · rcases List.mem_cons.1 he with rfl | he
    · decide
    · obtain ⟨i, hi, rfl⟩ := List.mem_map.1 he
      intro h
      have h := congrArg UInt8.toNat (List.mem_singleton.1 h)
      rw [toNat_ofNat (by have := List.mem_range.1 hi; omega)] at h
      have := List.mem_range.1 hi
      have : 255 = i + 1 := h
      omega

theorem wide_length : wide.length = 256 := by
  unfold wide
  rw [List.length_cons, List.length_cons, List.length_map, List.length_range]

theorem wide_nodup : (wide.map (·.1)).Nodup := by
  unfold wide
  simp only [List.map_cons, List.map_map]
  have hlen : ∀ (x : Byte) (k : Key), k ∈ (List.range 254).map ((·.1) ∘ fun i => (([UInt8.ofNat (i + 1)], 0) : Key × Nat)) → k ≠ [0, x] := fun x k hk h => by
    obtain ⟨i, -, rfl⟩ := List.mem_map.1 hk
    simp at h
  refine List.nodup_cons.2 ⟨fun h => ?_, List.nodup_cons.2 ⟨fun h => hlen 2 _ h rfl, ?_⟩⟩
  · rcases List.mem_cons.1 h with h | h
    · simp at h
    · exact hlen 1 _ h rfl
  · rw [List.Nodup, List.pairwise_map]
    refine List.nodup_range.imp_of_mem fun {i j} hi hj hne h => hne ?_
    have h2 := congrArg UInt8.toNat (List.singleton_inj.1 h)
    rw [toNat_ofNat (by have := List.mem_range.1 hi; omega), toNat_ofNat (by have := List.mem_range.1 hj; omega)] at h2
    omega

theorem wider_nodup : (wider.map (·.1)).Nodup := by
  unfold wider
  rw [List.map_append, List.nodup_append]
  refine ⟨wide_nodup, by simp, fun k hk k' hk' h => ?_⟩
  obtain ⟨e, he, rfl⟩ := List.mem_map.1 hk
  refine wide_255 he ?_
  rw [h, show k' = [255] by simpa using hk']
  simp

theorem wider_free : ∀ e ∈ wider, ∀ f ∈ wider, e.1 <+: f.1 → e = f := fun e he f hf h => by
  obtain ⟨ve, he⟩ := wider_mem he
  obtain ⟨vf, hf⟩ := wider_mem hf
  suffices e.1 = f.1 from Prod.ext this (ve.trans vf.symm)
  obtain ⟨t, ht⟩ := h
  rcases he with he | he | ⟨b, hb, he⟩ <;> rcases hf with hf | hf | ⟨b', hb', hf⟩ <;> rw [he, hf] at ht <;> simp at ht <;> rw [he, hf]
  · exact absurd ht.1 hb
  · exact absurd ht.1 hb
  · rw [ht.1]

theorem wide_compat : Map.Compatible wide := by
  have hhas : ∀ k, Map.has wide k → ∃ e ∈ wide, e.1 = k := fun k ⟨v, hv⟩ => ⟨_, hv, rfl⟩
  refine ⟨fun k k' hk hk' h => ?_, fun Q => ⟨255, fun k hk h => ?_⟩, by rw [wide_length]; decide⟩
  · obtain ⟨x, hx, rfl⟩ := hhas k hk
    obtain ⟨y, hy, rfl⟩ := hhas k' hk'
    have := wider_free y (List.mem_append_left _ hy) x (List.mem_append_left _ hx) ((List.prefix_append _ _).trans h)
    subst this
    have := h.length_le
    simp at this
    omega
  · obtain ⟨x, hx, rfl⟩ := hhas k hk
    rcases List.mem_append.1 (h.subset (show (255 : Byte) ∈ Q ++ [255] by simp)) with h | h
    · exact wide_255 hx h
    · simp at h

/-- The 256th child, and then a deletion below child 0, from any state with such a tree. -/
theorem wide_step (w : World V) (i : Nat) (t : Tree) (v : V) (ht : w.trees[i]? = some t) (hl : w.trees.length = i + 1) (htop : Top w.heap t.root 255 (· = none)) (hsz : t.size ≠ 0) :
    (exec (exec (exec w (.insert i [255] v)).2 (.delete (i + 1) [0, 1])).2 (.get (i + 2) [1])).1 = .value none := by
  obtain ⟨r, s1, hs1, hr1, htop1⟩ := Top.treeOp (s := w.st default) (f := txnInsert [255] v) (t := t) (Q := fun _ s' => Top s'.heap s'.txn.root (255 + 1) (· ≠ none)) htop
    fun s1 g1 g2 g3 => g1.txnInsert (by rw [g2]; exact hsz) rfl
  have hw1 : (exec w (.insert i [255] v)).2 = { w.put s1 with trees := w.trees ++ [r.1] } := congrArg Prod.snd (onTree_run ht hs1)
  rw [hw1]
  rw [← hr1] at htop1
  have htop1' : Top ({ w.put s1 with trees := w.trees ++ [r.1] } : World V).heap r.1.root (255 + 1) (· ≠ none) := htop1
  have hlen1 : ({ w.put s1 with trees := w.trees ++ [r.1] } : World V).trees.length = i + 2 := by simp [hl]
  have ht1 : ({ w.put s1 with trees := w.trees ++ [r.1] } : World V).trees[i + 1]? = some r.1 := by
    show (w.trees ++ [r.1])[i + 1]? = _
    rw [← hl]
    exact List.getElem?_concat_length
  generalize ({ w.put s1 with trees := w.trees ++ [r.1] } : World V) = w1 at *
  obtain ⟨r2, s2, hs2, hr2, hph⟩ := Top.treeOp (s := w1.st default) (f := txnDelete [0, 1]) (t := r.1) (Q := fun _ s' => Phantom s'.heap s'.txn.root false) htop1'
    fun s1 g1 g2 g3 => g1.txnDelete
  have hw2 : (exec w1 (.delete (i + 1) [0, 1])).2 = { w1.put s2 with trees := w1.trees ++ [r2.1] } := congrArg Prod.snd (onTree_run ht1 hs2)
  rw [hw2]
  have ht2 : ({ w1.put s2 with trees := w1.trees ++ [r2.1] } : World V).trees[i + 2]? = some r2.1 := by
    show (w1.trees ++ [r2.1])[i + 2]? = _
    rw [← hlen1]
    exact List.getElem?_concat_length
  rw [← hr2] at hph
  have hph2 : Phantom ({ w1.put s2 with trees := w1.trees ++ [r2.1] } : World V).heap r2.1.root false := hph
  generalize ({ w1.put s2 with trees := w1.trees ++ [r2.1] } : World V) = w2 at *
  have hsearch : treeGet w2.heap r2.1 [1] = .ok none := by
    unfold treeGet Art.search
    rw [hph2.search (by simp [getTreeKey])]
    rfl
  obtain ⟨x, s3, hs3, rfl⟩ : Runs (do let s ← M.get; M.lift (treeGet s.heap r2.1 [1]) : M V (Option V)) (w2.st default) fun r _ => r = none :=
    Runs.bind (Runs.get (Runs.lift hsearch rfl))
  exact congrArg Prod.fst (onTree_run (w := w2) ht2 (f := fun tr => do let s ← M.get; M.lift (treeGet s.heap tr [1])) (out := fun r => (.value r, [])) hs3)

/-- After the keys of `wide`, the same. -/
theorem wide_lost (ops : List (Op Nat)) (hc : Clean ops) (h1 : mapAfter ops 256 = some wide.reverse) (hlen : (specAfter ops).trees.length = 257) :
    (exec (exec (exec (execAll World.init ops).2 (.insert 256 [255] 0)).2 (.delete 257 [0, 1])).2 (.get 258 [1])).1 = .value none := by
  have htl : (worldAfter ops).trees.length = 257 := by rw [hc.good.1.ntrees]; exact hlen
  obtain ⟨t, ht⟩ : ∃ t, (worldAfter ops).trees[256]? = some t := ⟨_, List.getElem?_eq_getElem (by omega)⟩
  have hv := hc.view ht h1
  obtain ⟨E, N, hr, ha⟩ := hv.rep
  have htop : Top (worldAfter ops).heap t.root 255 (· = none) := by
    refine Top.of_map hr ha (Map.has_reverse.2 ⟨0, .head _⟩) (Map.has_reverse.2 ⟨0, .tail _ (.head _)⟩) (fun b h0 h1 => Map.has_reverse.2 (wide_byte h0 h1)) ?_ ?_
    · rintro ⟨v, hv⟩
      rcases (wider_mem (List.mem_append_left _ (List.mem_reverse.1 hv))).2 with h | h | ⟨b, -, h⟩ <;> cases h
    · rintro k ⟨v, hv⟩
      exact wide_255 (List.mem_reverse.1 hv) (List.mem_cons_self ..)
  have hsz : t.size ≠ 0 := fun h => by
    have := hv.size.2 rfl
    rw [h, List.length_reverse, wide_length] at this
    cases this
  exact wide_step _ 256 t 0 ht htl htop hsz

/-- The calls that insert the keys of `wider`. -/
theorem wider_ops : (execAll World.init (inserts wider)).2 = (exec (execAll World.init (inserts wide)).2 (.insert 256 [255] 0)).2 := by
  unfold wider
  rw [inserts_snoc, execAll_snoc, wide_length]

/-- After the keys of `wider`, deleting `[0, 1]` makes `[1]` disappear. -/
theorem wider_lost : (exec (exec (execAll World.init (inserts wider)).2 (.delete 257 [0, 1])).2 (.get 258 [1])).1 = .value none := by
  obtain ⟨h1, h2⟩ := inserts_spec' wide wide_nodup
  have h3 := (inserts_spec wide.reverse (by rw [List.map_reverse]; exact (List.reverse_perm _).nodup_iff.2 wide_nodup)).1
  rw [List.reverse_reverse, List.length_reverse, wide_length] at h3
  rw [wide_length] at h1
  rw [wider_ops]
  exact wide_lost (inserts wide) (h2 wide_compat) h1 h3

/-- C42 is false: with 256 different next bytes the count of children wraps around to 0, and a deletion below one of
the children removes everything. -/
theorem C42_false : ¬ C42_Full (V := Nat) := fun h => by
  have hl : wider.length = 257 := by unfold wider; rw [List.length_append, wide_length]; rfl
  have h1 : (([1], 0) : Key × Nat) ∈ wider := List.mem_append_left _ (by
    obtain ⟨v, hv⟩ := wide_byte (b := 1) (by decide) (by decide)
    have := (wider_mem (List.mem_append_left _ hv)).1
    simp only at this
    subst this
    exact hv)
  have := ((h [] wider wider_nodup (fun e he => by
    rcases (wider_mem he).2 with h | h | ⟨b, -, h⟩ <;> exact ⟨_, _, h⟩) wider_free ([1], 0) h1).2 ([0, 1], 0) (List.mem_append_left _ (.head _)) (by simp)).2
  rw [hl] at this
  rw [wider_lost] at this
  cases this

end Art
