import Verif.Proofs.PoolInv
/-
The invariant of a schedule holds as long as the schedule runs; what follows for goroutines that have finished.
-/
set_option autoImplicit false
set_option linter.unusedVariables false
set_option linter.unusedSimpArgs false
set_option linter.unusedSectionVars false
namespace Art
variable {V : Type} {α : Type} {σ : Addr → Addr}

theorem Inner.ren_id (n : Inner) (k : Option ChanId) : n.ren _root_.id k = { n with ch := k } := by
  unfold Inner.ren
  rw [show (Option.map _root_.id : Option Addr → Option Addr) = _root_.id from Option.map_id, List.map_id]
  rfl

theorem CRel.refl [Lim] (c : Cell V) : CRel _root_.id c c := by
  cases c with
  | leaf l => exact .leaf l ⟨l.ch, .refl _⟩
  | inner n =>
    have := CRel.inner (V := V) (σ := _root_.id) n ⟨n.ch, .refl _⟩
    rwa [Inner.ren_id] at this

theorem HRel.refl {lim : Lim} (h : Heap V) : HRel _root_.id h h := fun a => by
  show ORel _root_.id h[a]? h[a]?
  cases h[a]? with
  | none => exact .none
  | some c => exact .some (.refl c)

/-- Fewer channels are compared. -/
theorem ORel.weaken {l l' : Lim} (hl : l'.limit ≤ l.limit) {o o' : Option (Cell V)} (h : @ORel V l σ o o') : @ORel V l' σ o o' := by
  cases h with
  | none => exact @ORel.none V l' σ
  | some hc =>
    refine @ORel.some V l' σ _ _ ?_
    cases hc with
    | leaf c k => exact @CRel.leaf V l' σ c ⟨k.1, fun d hd hlt => k.2 d hd (Nat.lt_of_lt_of_le hlt hl)⟩
    | inner n k => exact @CRel.inner V l' σ n ⟨k.1, fun d hd hlt => k.2 d hd (Nat.lt_of_lt_of_le hlt hl)⟩

theorem HRel.weaken {l l' : Lim} (hl : l'.limit ≤ l.limit) {h H : Heap V} (hr : @HRel V l σ h H) : @HRel V l' σ h H := fun a => (hr a).weaken hl

theorem Moves.own {S : Prop} {n0 : Nat} {H H' : Heap V} {A A' : List Addr} (h : Moves S n0 H A H' A') : A' = A ++ List.range' H.length (H'.length - H.length) := by
  cases h with
  | same => simp
  | chan a k _ => simp [setChan_length]
  | write x c hx => simp
  | alloc c => simp

/-- The goroutine has not returned. -/
def Proc.running (p : Proc V α) : Prop := ∀ x, p.code ≠ .done x

/-- The invariant: `A i` are the nodes that goroutine `i` may use, in the order in which they are allocated when it is alone;
it writes only to those from number `n i` on, and as long as it runs nobody else uses these.  `r i` is how it ends when it is
alone.  `L i` are the channels that are compared for goroutine `i`, `L0` those that are compared with the beginning. -/
structure PInv (L0 : Nat) (L : Nat → Lim) (h0 : Heap V) (n : Nat → Nat) (r : Nat → R α × St V) (Q : (Addr → Addr) → α → α → Prop) (P : Pool V α) (A : Nat → List Addr) : Prop where
  base : h0.length ≤ P.heap.length
  nodup : ∀ i, (A i).Nodup
  rng : ∀ i, ∀ x ∈ A i, x < P.heap.length
  nle : ∀ i, n i ≤ (A i).length
  keep : ∀ i, ∀ x ∈ (A i).drop (n i), h0.length ≤ x
  disj : ∀ i p, P.procs[i]? = some p → p.running → ∀ j, i ≠ j → ∀ x ∈ (A i).drop (n i), x ∉ A j
  good : ∀ i p, P.procs[i]? = some p → ∃ c s, c.quiet ∧ Mirrors (L i) (n i) (r i) Q P.heap (A i) p c s
  old : ∀ a, a < h0.length → @ORel V ⟨L0, fun _ => True⟩ _root_.id h0[a]? P.heap[a]?

/-- The action does not replace the channel of a node. -/
def Pool.Gentle (P : Pool V α) : Event → Prop
  | .step j => ∀ p, P.procs[j]? = some p → ¬ ∃ a ch k, p.code = .store a ch k
  | .look .. => True
  | .chan a _ => chanOf P.heap a = none

/-- The nodes that the action adds for goroutine `i`. -/
def Pool.added (P : Pool V α) (x : Event) (i : Nat) : List Addr :=
  match x with
  | .step j => if j = i then List.range' P.heap.length ((P.act x).heap.length - P.heap.length) else []
  | _ => []

section
variable {L0 : Nat} {L : Nat → Lim} {h0 : Heap V} {n : Nat → Nat} {r : Nat → R α × St V} {Q : (Addr → Addr) → α → α → Prop} {P : Pool V α} {A : Nat → List Addr}

theorem old_set {lim : Lim} {H : Heap V} (h : ∀ a, a < h0.length → ORel _root_.id h0[a]? H[a]?) (a : Addr) (k : ChanId) (ha : chanOf H a = none ∨ Lim.limit = 0) :
    ∀ b, b < h0.length → ORel _root_.id h0[b]? (setChan H a k)[b]? := by
  intro b hb
  have h1 := h b hb
  by_cases e : a = b
  · subst e
    rcases setChan_get H a k a with e | ⟨c, e1, e2⟩
    · rw [e]; exact h1
    · rw [e2]; rw [e1] at h1
      generalize h0[a]? = o at h1
      cases h1 with
      | some hc =>
        refine .some (hc.setChR _ ?_)
        rcases ha with ha | ha
        · have h2 := hc.kin
          unfold chanOf at ha
          rw [e1] at ha
          exact fun d hd hl => nomatch (show c.ch = none from ha) ▸ h2 d hd hl
        · exact .free ha _ _
  · rw [setChan_ne H k e]; exact h1

theorem PInv.act (h : PInv L0 L h0 n r Q P A) (hr : ∀ i, (r i).1 ≠ .error .fuel) (x : Event) (h0x : L0 = 0 ∨ P.Gentle x)
    (hx : ∀ i, (L i).limit = 0 ∨ P.Gentle x ∨ x = .step i)
    (hD : ∀ i p, (P.act x).procs[i]? = some p → ∀ d ∈ p.txn.trackChnSlice, d < (L i).limit → (L i).mark d) : PInv L0 L h0 n r Q (P.act x) (fun i => A i ++ P.added x i) := by
  cases x with
  | step i =>
    have idle : P.act (.step i) = P → PInv L0 L h0 n r Q (P.act (.step i)) (fun j => A j ++ P.added (.step i) j) := fun e => by
      have e2 : ∀ j, P.added (.step i) j = [] := fun j => by
        unfold Pool.added
        dsimp only
        rw [e]
        split <;> simp
      simp only [e, e2, List.append_nil]
      exact h
    cases hp : P.procs[i]? with
    | none => exact idle (by simp only [Pool.act, hp])
    | some p =>
      have hset : P.procs.set i p = P.procs := by
        obtain ⟨h1, h2⟩ := List.getElem?_eq_some_iff.1 hp
        rw [← h2]
        exact List.set_getElem_self h1
      have hrun : p.running ∨ ∃ y, p.code = .done y := by
        unfold Proc.running
        cases p.code with
        | done y => exact .inr ⟨y, rfl⟩
        | _ => exact .inl fun _ => nofun
      rcases hrun with hrun | ⟨y, hy⟩
      case inr => exact idle (by simp only [Pool.act, hp, Proc.step, hy, hset])
      obtain ⟨c, s, hq, hf⟩ := h.good i p hp
      have hDi : ∀ d ∈ (p.step P.heap P.chans).2.2.txn.trackChnSlice, d < (L i).limit → (L i).mark d := by
        refine hD i _ ?_
        simp only [Pool.act, hp]
        exact List.getElem?_set_self (List.getElem?_eq_some_iff.1 hp).1
      obtain ⟨A', c', s', hm, hf'⟩ := hf.own hq (hr i) (h.nodup i) (h.rng i) P.chans hDi
      obtain ⟨c', s', hq', hf'⟩ := hf'.settle
      have e : P.act (.step i) = ⟨(p.step P.heap P.chans).1, (p.step P.heap P.chans).2.1, P.procs.set i (p.step P.heap P.chans).2.2⟩ := by simp only [Pool.act, hp]
      have ei : A i ++ P.added (.step i) i = A' := by
        rw [hm.own]
        unfold Pool.added
        simp only [if_true, e]
      have ej : ∀ j, j ≠ i → A j ++ P.added (.step i) j = A j := fun j hj => by
        unfold Pool.added
        simp only [if_neg (Ne.symm hj), List.append_nil]
      have hd0 := h.disj i p hp hrun
      have hA' : A'.Nodup ∧ (∀ x ∈ A', x < (p.step P.heap P.chans).1.length) ∧ (A i).length ≤ A'.length ∧ (∀ x ∈ A', x ∈ A i ∨ P.heap.length ≤ x) ∧
          ∀ x ∈ A'.drop (n i), x ∈ (A i).drop (n i) ∨ P.heap.length ≤ x := by
        generalize (p.step P.heap P.chans).1 = H' at hm
        have hl := hm.len
        cases hm with
        | same => exact ⟨h.nodup i, h.rng i, Nat.le_refl _, fun x hx => .inl hx, fun x hx => .inl hx⟩
        | chan a k _ => exact ⟨h.nodup i, fun x hx => by rw [setChan_length]; exact h.rng i x hx, Nat.le_refl _, fun x hx => .inl hx, fun x hx => .inl hx⟩
        | write a c hx => exact ⟨h.nodup i, fun x hx => by rw [List.length_set]; exact h.rng i x hx, Nat.le_refl _, fun x hx => .inl hx, fun x hx => .inl hx⟩
        | alloc c =>
          refine ⟨?_, fun x hx => ?_, by simp, fun x hx => ?_, fun x hx => ?_⟩
          · rw [List.nodup_append]
            refine ⟨h.nodup i, by simp, fun a ha b hb => ?_⟩
            have := h.rng i a ha
            simp only [List.mem_singleton] at hb
            omega
          · simp only [List.mem_append, List.mem_singleton] at hx
            simp only [List.length_append, List.length_cons, List.length_nil]
            rcases hx with hx | hx
            · have := h.rng i x hx; omega
            · omega
          · simp only [List.mem_append, List.mem_singleton] at hx
            rcases hx with hx | hx
            · exact .inl hx
            · exact .inr (Nat.le_of_eq hx.symm)
          · rw [List.drop_append_of_le_length (h.nle i)] at hx
            simp only [List.mem_append, List.mem_singleton] at hx
            rcases hx with hx | hx
            · exact .inl hx
            · exact .inr (Nat.le_of_eq hx.symm)
      have hd : ∀ j, j ≠ i → ∀ x ∈ A'.drop (n i), x ∉ A j := fun j hj x hx hxj => by
        rcases hA'.2.2.2.2 x hx with h1 | h1
        · exact hd0 j (Ne.symm hj) x h1 hxj
        · have := h.rng j x hxj; omega
      rw [e]
      refine ⟨Nat.le_trans h.base hm.len, fun j => ?_, fun j => ?_, fun j => ?_, fun j => ?_, fun j q hq hqr k hjk => ?_, fun j q hq => ?_, fun a ha => ?_⟩
      · by_cases hj : j = i
        · subst hj; simp only [ei]; exact hA'.1
        · simp only [ej j hj]; exact h.nodup j
      · by_cases hj : j = i
        · subst hj; simp only [ei]; exact hA'.2.1
        · simp only [ej j hj]
          exact fun x hx => Nat.lt_of_lt_of_le (h.rng j x hx) hm.len
      · by_cases hj : j = i
        · subst hj; simp only [ei]; exact Nat.le_trans (h.nle j) hA'.2.2.1
        · simp only [ej j hj]; exact h.nle j
      · by_cases hj : j = i
        · subst hj
          simp only [ei]
          intro x hx
          rcases hA'.2.2.2.2 x hx with h1 | h1
          · exact h.keep j x h1
          · exact Nat.le_trans h.base h1
        · simp only [ej j hj]; exact h.keep j
      · by_cases hj : j = i
        · subst hj; simp only [ei, ej k (Ne.symm hjk)]; exact hd k (Ne.symm hjk)
        · dsimp only at hq
          rw [List.getElem?_set_ne (Ne.symm hj)] at hq
          by_cases hk : k = i
          · subst hk
            simp only [ei, ej j hj]
            intro x hx hx'
            rcases hA'.2.2.2.1 x hx' with h1 | h1
            · exact h.disj j q hq hqr k hjk x hx h1
            · have := h.rng j x (List.mem_of_mem_drop hx); omega
          · simp only [ej j hj, ej k hk]; exact h.disj j q hq hqr k hjk
      · by_cases hj : j = i
        · subst hj
          simp only [ei]
          dsimp only at hq
          rw [List.getElem?_set_self (List.getElem?_eq_some_iff.1 hp).1] at hq
          cases hq
          exact ⟨c', s', hq', hf'⟩
        · simp only [ej j hj]
          dsimp only at hq
          rw [List.getElem?_set_ne (Ne.symm hj)] at hq
          obtain ⟨c2, s2, hq2, hf2⟩ := h.good j q hq
          refine ⟨c2, s2, hq2, hf2.other hm (fun hS => ?_) (h.rng j) (hd0 j (Ne.symm hj))⟩
          rcases hx j with h1 | h1 | h1
          · exact h1
          · exact absurd hS (h1 p hp)
          · cases h1; exact absurd rfl hj
      · dsimp only
        generalize (p.step P.heap P.chans).1 = H' at hm
        cases hm with
        | same => exact h.old a ha
        | chan b k hb => exact old_set h.old b k (hb.imp_right fun hS => h0x.resolve_right fun h1 => h1 p hp hS) a ha
        | write b c hx =>
          have : b ≠ a := by
            have hb := h.base
            rcases hx with hx | hx
            · have := h.keep i b hx; omega
            · omega
          rw [List.getElem?_set_ne this]
          exact h.old a ha
        | alloc c =>
          rw [List.getElem?_append_left (Nat.lt_of_lt_of_le ha h.base)]
          exact h.old a ha
  | look i a =>
    have e2 : ∀ j, P.added (.look i a) j = [] := fun j => rfl
    simp only [e2, List.append_nil]
    unfold Pool.act
    dsimp only
    cases hp : P.procs[i]? with
    | none => exact h
    | some p =>
      have hcode : (p.look P.heap a).code = p.code := by unfold Proc.look; split <;> rfl
      refine ⟨h.base, h.nodup, h.rng, h.nle, h.keep, fun j q hq hqr => ?_, fun j q hq => ?_, h.old⟩
      · by_cases hj : j = i
        · subst hj
          dsimp only at hq
          rw [List.getElem?_set_self (List.getElem?_eq_some_iff.1 hp).1] at hq
          cases hq
          exact h.disj j p hp (fun x => hcode ▸ hqr x)
        · dsimp only at hq
          rw [List.getElem?_set_ne (Ne.symm hj)] at hq
          exact h.disj j q hq hqr
      · by_cases hj : j = i
        · subst hj
          dsimp only at hq
          rw [List.getElem?_set_self (List.getElem?_eq_some_iff.1 hp).1] at hq
          cases hq
          obtain ⟨c, s, hq, hf⟩ := h.good j p hp
          exact ⟨c, s, hq, hf.look a⟩
        · dsimp only at hq
          rw [List.getElem?_set_ne (Ne.symm hj)] at hq
          exact h.good j q hq
  | chan a k =>
    have e2 : ∀ j, P.added (.chan a k) j = [] := fun j => rfl
    simp only [e2, List.append_nil]
    unfold Pool.act
    dsimp only
    refine ⟨?_, h.nodup, fun i x hx => ?_, h.nle, h.keep, h.disj, fun j q hq => ?_, old_set h.old a k h0x.symm⟩
    · dsimp only; rw [setChan_length]; exact h.base
    · dsimp only; rw [setChan_length]; exact h.rng i x hx
    · obtain ⟨c, s, hq, hf⟩ := h.good j q hq
      rcases hx j with h1 | h1
      · exact ⟨c, s, hq, hf.other (.chan (S := True) (n0 := 0) (A := []) a k (.inr trivial)) (fun _ => h1) (h.rng j) nofun⟩
      · exact ⟨c, s, hq, hf.other (.chan (S := False) (n0 := 0) (A := []) a k (.inl (h1.resolve_right nofun))) nofun (h.rng j) nofun⟩
end

/-- The nodes that a schedule adds for goroutine `i`. -/
def Pool.made (P : Pool V α) : List Event → Nat → List Addr
  | [], _ => []
  | x :: acts, i => P.added x i ++ (P.act x).made acts i

section
variable {L0 : Nat} {L : Nat → Lim} {h0 : Heap V} {n : Nat → Nat} {r : Nat → R α × St V} {Q : (Addr → Addr) → α → α → Prop} {P : Pool V α} {A : Nat → List Addr}

/-- A goroutine that has finished. -/
theorem PInv.finished (h : PInv L0 L h0 n r Q P A) {i : Nat} {x : R α} (hx : P.result i = some x) :
    (r i).2.heap.length = (A i).length ∧ (r i).2.heap.length ≤ P.heap.length ∧
    (∀ σ, Renames (A i) P.heap.length σ → @HRel V (L i) σ (r i).2.heap P.heap ∧ Par (Q σ) (r i).1 x) ∧ @St.Marked V (L i) (r i).2 := by
  unfold Pool.result at hx
  cases hp : P.procs[i]? with
  | none => rw [hp] at hx; cases hx
  | some p =>
    rw [hp] at hx
    obtain ⟨code, txn, view⟩ := p
    cases code with
    | done y =>
      cases hx
      obtain ⟨c, s, hq, hf⟩ := h.good i _ hp
      obtain ⟨σ0, hσ0⟩ := Renames.exists (h.nodup i) (h.rng i)
      have h0 := hf.pair σ0 hσ0
      have h2 := hf.run
      dsimp only at h0
      cases c with
      | done z =>
        rw [← h2]
        refine ⟨hf.size, hf.len, fun σ hσ => ⟨hf.heap σ hσ, ?_⟩, hf.marked⟩
        have h1 := hf.pair σ hσ
        dsimp only at h1
        cases h1 with
        | fuel _ => exact .fuel _
        | done h => exact h
      | make | claim | load | test | shut => exact hq.elim
      | _ => cases h0
    | _ => cases hx

theorem PInv.renames (h : PInv L0 L h0 n r Q P A) (i : Nat) : ∃ σ, Renames (A i) P.heap.length σ := Renames.exists (h.nodup i) (h.rng i)
end

/-! ### Which nodes a step reads or writes -/

section
variable {L0 : Nat} {L : Nat → Lim} {h0 : Heap V} {n : Nat → Nat} {r : Nat → R α × St V} {Q : (Addr → Addr) → α → α → Prop} {P : Pool V α} {A : Nat → List Addr}

theorem PInv.writes (h : PInv L0 L h0 n r Q P A) (hr : ∀ i, (r i).1 ≠ .error .fuel) {i : Nat} {p : Proc V α} (hp : P.procs[i]? = some p) {a : Addr}
    (ha : p.writes = some a) (hl : a < P.heap.length) : a ∈ (A i).drop (n i) := by
  obtain ⟨c, s, hq, hf⟩ := h.good i p hp
  obtain ⟨σ, hσ⟩ := Renames.exists (h.nodup i) (h.rng i)
  have h1 := hf.pair σ hσ
  have h2 := hf.run
  have h3 := hf.seen
  unfold Proc.writes at ha
  cases hc : p.code with
  | write b cc k =>
    rw [hc] at ha h1
    cases ha
    cases c with
    | done x => cases h1; exact absurd (by rw [← h2]; rfl) (hr i)
    | make | claim | load | test | shut => exact hq.elim
    | write b' c' k' =>
      have := h3 _ (List.mem_cons_self ..) rfl
      dsimp only at this
      cases h1 with
      | write _ _ =>
        rcases hσ.cases b' with k2 | ⟨k1, k2⟩
        · exact mem_drop_of_getElem? k2 this
        · omega
    | _ => cases h1
  | _ => rw [hc] at ha; cases ha

theorem PInv.reads (h : PInv L0 L h0 n r Q P A) (hr : ∀ i, (r i).1 ≠ .error .fuel) {i : Nat} {p : Proc V α} (hp : P.procs[i]? = some p) {a : Addr}
    (ha : p.reads = some a) (hl : a < P.heap.length) : a ∈ A i := by
  obtain ⟨c, s, hq, hf⟩ := h.good i p hp
  obtain ⟨σ, hσ⟩ := Renames.exists (h.nodup i) (h.rng i)
  have h1 := hf.pair σ hσ
  have h2 := hf.run
  unfold Proc.reads at ha
  cases hc : p.code with
  | read b k =>
    rw [hc] at ha h1
    cases ha
    cases c with
    | done x => cases h1; exact absurd (by rw [← h2]; rfl) (hr i)
    | make | claim | load | test | shut => exact hq.elim
    | read b' k' =>
      cases h1 with
      | read _ =>
        rcases hσ.cases b' with k2 | ⟨k1, k2⟩
        · exact List.mem_of_getElem? k2
        · omega
    | _ => cases h1
  | _ => rw [hc] at ha; cases ha
end

/-! ### One more goroutine -/

/-- `f` with another value at `j`. -/
def setAt {β : Type} (f : Nat → β) (j : Nat) (b : β) : Nat → β := fun i => if i = j then b else f i

theorem setAt_self {β : Type} (f : Nat → β) (j : Nat) (b : β) : setAt f j b j = b := if_pos rfl
theorem setAt_ne {β : Type} (f : Nat → β) {i j : Nat} (b : β) (h : i ≠ j) : setAt f j b i = f i := if_neg h

section
variable {L0 : Nat} {L : Nat → Lim} {h0 : Heap V} {n : Nat → Nat} {r : Nat → R α × St V} {Q : (Addr → Addr) → α → α → Prop} {P : Pool V α} {A : Nat → List Addr}

/-- Other channels are compared. -/
theorem PInv.change (h : PInv L0 L h0 n r Q P A) {L0' : Nat} {L' : Nat → Lim} (h1 : L0' ≤ L0)
    (h2 : ∀ i, i < P.procs.length → L' i = L i) : PInv L0' L' h0 n r Q P A :=
  ⟨h.base, h.nodup, h.rng, h.nle, h.keep, h.disj, fun i p hp => by
    rw [h2 i (List.getElem?_eq_some_iff.1 hp).1]
    exact h.good i p hp, fun a ha => (h.old a ha).weaken h1⟩

/-- A goroutine joins that uses nodes which no running goroutine writes to. -/
theorem PInv.join (h : PInv L0 L h0 n r Q P A) {F : List Addr} {p : Proc V α} {y : R α × St V} (hn : F.Nodup) (hr : ∀ x ∈ F, x < P.heap.length)
    (hd : ∀ i q, P.procs[i]? = some q → q.running → ∀ x ∈ (A i).drop (n i), x ∉ F)
    (hm : ∃ c s, Mirrors (L P.procs.length) F.length y Q P.heap F p c s) :
    PInv L0 L h0 (setAt n P.procs.length F.length) (setAt r P.procs.length y) Q { P with procs := P.procs ++ [p] } (setAt A P.procs.length F) := by
  have hlt : ∀ i q, i ≠ P.procs.length → (P.procs ++ [p])[i]? = some q → P.procs[i]? = some q := fun i q hi hq => by
    have : i < P.procs.length := by
      have := (List.getElem?_eq_some_iff.1 hq).1
      simp only [List.length_append, List.length_cons, List.length_nil] at this
      omega
    rwa [List.getElem?_append_left this] at hq
  refine ⟨h.base, fun i => ?_, fun i => ?_, fun i => ?_, fun i => ?_, fun i q hq hqr j hij => ?_, fun i q hq => ?_, h.old⟩
  · by_cases e : i = P.procs.length
    · subst e; rw [setAt_self]; exact hn
    · rw [setAt_ne _ _ e]; exact h.nodup i
  · by_cases e : i = P.procs.length
    · subst e; rw [setAt_self]; exact hr
    · rw [setAt_ne _ _ e]; exact h.rng i
  · by_cases e : i = P.procs.length
    · subst e; rw [setAt_self, setAt_self]; exact Nat.le_refl _
    · rw [setAt_ne _ _ e, setAt_ne _ _ e]; exact h.nle i
  · by_cases e : i = P.procs.length
    · subst e; rw [setAt_self, setAt_self, List.drop_length]; exact nofun
    · rw [setAt_ne _ _ e, setAt_ne _ _ e]; exact h.keep i
  · by_cases e : i = P.procs.length
    · subst e; rw [setAt_self, setAt_self, List.drop_length]; exact nofun
    · rw [setAt_ne _ _ e, setAt_ne _ _ e]
      have hq := hlt i q e hq
      by_cases e2 : j = P.procs.length
      · subst e2; rw [setAt_self]; exact hd i q hq hqr
      · rw [setAt_ne _ _ e2]; exact h.disj i q hq hqr j hij
  · by_cases e : i = P.procs.length
    · subst e
      rw [setAt_self, setAt_self, setAt_self]
      rw [List.getElem?_concat_length] at hq
      cases hq
      obtain ⟨c, s, hf⟩ := hm
      obtain ⟨c2, s2, hq, hf⟩ := hf.settle
      exact ⟨c2, s2, hq, hf⟩
    · rw [setAt_ne _ _ e, setAt_ne _ _ e, setAt_ne _ _ e]
      exact h.good i q (hlt i q e hq)
end

/-- Nobody is there yet. -/
theorem PInv.init (L0 : Nat) (L : Nat → Lim) (h0 : Heap V) (cs : List Bool) (r : Nat → R α × St V) (Q : (Addr → Addr) → α → α → Prop) :
    PInv L0 L h0 (fun _ => 0) r Q { heap := h0, chans := cs, procs := [] } (fun _ => []) where
  base := Nat.le_refl _
  nodup := fun i => List.nodup_nil
  rng := fun i x hx => nomatch hx
  nle := fun i => Nat.le_refl _
  keep := fun i x hx => nomatch hx
  disj := fun i p hp => nomatch hp
  good := fun i p hp => nomatch hp
  old := fun a ha => HRel.refl h0 a

end Art
