import Verif.Model.Iter
/-
A larger loop bound does not change a result that did not run out of it.
-/
namespace Art
variable {V : Type}

theorem Except.bind_ok {α β : Type} (a : α) (f : α → R β) : (Except.ok a : R α) >>= f = f a := rfl
theorem Except.bind_error {α β : Type} (e : Err) (f : α → R β) : (Except.error e : R α) >>= f = .error e := rfl

theorem iterNext_succ (h : Heap V) (n : Nat) (it : Iter) (hne : iterNext h n it ≠ .error .fuel) :
    iterNext h (n + 1) it = iterNext h n it := by
  induction n generalizing it with
  | zero => exact absurd rfl hne
  | succ n ih =>
    rw [iterNext]
    rw [iterNext] at hne ⊢
    cases hs : it.stack with
    | nil => rfl
    | cons x rest =>
      simp only [hs] at hne ⊢
      cases x with
      | none => rfl
      | some a =>
        simp only at hne ⊢
        cases hr : rd h a with
        | error e => rfl
        | ok c =>
          simp only [hr, Except.bind_ok] at hne ⊢
          cases c with
          | leaf l =>
            simp only at hne ⊢
            split
            · rfl
            · rename_i hc
              rw [if_neg hc] at hne
              exact ih _ hne
          | inner nd =>
            simp only at hne ⊢
            cases hl : nd.leaf with
            | none => simp only [hl] at hne ⊢; exact ih _ hne
            | some l =>
              simp only [hl] at hne ⊢
              cases hr2 : rdLeaf h l with
              | error e => rfl
              | ok lc =>
                simp only [hr2, Except.bind_ok] at hne ⊢
                split
                · rfl
                · rename_i hc
                  rw [if_neg hc] at hne
                  exact ih _ hne

theorem iterCollect_succ (h : Heap V) (n : Nat) (it : Iter) (hne : iterCollect h n it ≠ .error .fuel) :
    iterCollect h (n + 1) it = iterCollect h n it := by
  induction n generalizing it with
  | zero => exact absurd rfl hne
  | succ n ih =>
    rw [iterCollect]
    rw [iterCollect] at hne ⊢
    have h1 : iterNext h (n + 1) it ≠ .error .fuel := by
      intro h1; rw [h1] at hne; exact hne rfl
    rw [iterNext_succ h (n + 1) it h1]
    cases hr : iterNext h (n + 1) it with
    | error e => rfl
    | ok p =>
      obtain ⟨r, it'⟩ := p
      simp only [hr, Except.bind_ok] at hne ⊢
      cases r with
      | none => rfl
      | some kv =>
        simp only at hne ⊢
        have h2 : iterCollect h n it' ≠ .error .fuel := by
          intro h2; rw [h2] at hne; exact hne rfl
        rw [ih it' h2]

theorem pathNext_succ (h : Heap V) (n : Nat) (it : PathIter) (hne : pathNext h n it ≠ .error .fuel) :
    pathNext h (n + 1) it = pathNext h n it := by
  induction n generalizing it with
  | zero => exact absurd rfl hne
  | succ n ih =>
    rw [pathNext]
    rw [pathNext] at hne ⊢
    cases hs : it.stack with
    | nil => rfl
    | cons a rest =>
      simp only [hs] at hne ⊢
      cases hr : rd h a with
      | error e => rfl
      | ok c =>
        simp only [hr, Except.bind_ok] at hne ⊢
        cases c with
        | leaf l =>
          simp only at hne ⊢
          split
          · rfl
          · rename_i hc
            rw [if_neg hc] at hne
            exact ih _ hne
        | inner nd =>
          simp only at hne ⊢
          exact ih _ hne

theorem pathCollect_succ (h : Heap V) (n : Nat) (it : PathIter) (hne : pathCollect h n it ≠ .error .fuel) :
    pathCollect h (n + 1) it = pathCollect h n it := by
  induction n generalizing it with
  | zero => exact absurd rfl hne
  | succ n ih =>
    rw [pathCollect]
    rw [pathCollect] at hne ⊢
    have h1 : pathNext h (n + 1) it ≠ .error .fuel := by
      intro h1; rw [h1] at hne; exact hne rfl
    rw [pathNext_succ h (n + 1) it h1]
    cases hr : pathNext h (n + 1) it with
    | error e => rfl
    | ok p =>
      obtain ⟨r, it'⟩ := p
      simp only [hr, Except.bind_ok] at hne ⊢
      cases r with
      | none => rfl
      | some kv =>
        simp only at hne ⊢
        have h2 : pathCollect h n it' ≠ .error .fuel := by
          intro h2; rw [h2] at hne; exact hne rfl
        rw [ih it' h2]

theorem lbNext_succ (h : Heap V) (n : Nat) (st : List (Option Addr)) (hne : lbNext h n st ≠ .error .fuel) :
    lbNext h (n + 1) st = lbNext h n st := by
  induction n generalizing st with
  | zero => exact absurd rfl hne
  | succ n ih =>
    rw [lbNext.eq_def]
    rw [lbNext.eq_def] at hne
    rw [lbNext.eq_def h (n + 1)]
    cases st with
    | nil => rfl
    | cons x rest =>
      cases x with
      | none => rfl
      | some a =>
        simp only at hne ⊢
        cases hr : rd h a with
        | error e => rfl
        | ok c =>
          simp only [hr, Except.bind_ok] at hne ⊢
          cases c with
          | leaf l => rfl
          | inner nd =>
            simp only at hne ⊢
            cases hl : nd.leaf with
            | none => simp only [hl] at hne ⊢; exact ih _ hne
            | some l => rfl

theorem lbCollect_succ (h : Heap V) (n : Nat) (it : List (Option Addr)) (hne : lbCollect h n it ≠ .error .fuel) :
    lbCollect h (n + 1) it = lbCollect h n it := by
  induction n generalizing it with
  | zero => exact absurd rfl hne
  | succ n ih =>
    rw [lbCollect]
    rw [lbCollect] at hne ⊢
    have h1 : lbNext h (n + 1) it ≠ .error .fuel := by
      intro h1; rw [h1] at hne; exact hne rfl
    rw [lbNext_succ h (n + 1) it h1]
    cases hr : lbNext h (n + 1) it with
    | error e => rfl
    | ok p =>
      obtain ⟨r, it'⟩ := p
      simp only [hr, Except.bind_ok] at hne ⊢
      cases r with
      | none => rfl
      | some kv =>
        simp only at hne ⊢
        have h2 : lbCollect h n it' ≠ .error .fuel := by
          intro h2; rw [h2] at hne; exact hne rfl
        rw [ih it' h2]

theorem revNext_succ (h : Heap V) (path : Key) (ex : List Addr) (n : Nat) (st : List (Option Addr))
    (hne : revNext h path ex n st ≠ .error .fuel) :
    revNext h path ex (n + 1) st = revNext h path ex n st := by
  induction n generalizing st with
  | zero => exact absurd rfl hne
  | succ n ih =>
    rw [revNext.eq_def]
    rw [revNext.eq_def] at hne
    rw [revNext.eq_def h path ex (n + 1)]
    cases st with
    | nil => rfl
    | cons x rest =>
      cases x with
      | none => rfl
      | some a =>
        simp only at hne ⊢
        cases hr : rd h a with
        | error e => rfl
        | ok c =>
          simp only [hr, Except.bind_ok] at hne ⊢
          cases c with
          | leaf l =>
            simp only at hne ⊢
            split
            · rfl
            · rename_i hc
              rw [if_neg hc] at hne
              exact ih _ hne
          | inner nd =>
            simp only at hne ⊢
            cases hl : leafOf h nd.leaf with
            | error e => rfl
            | ok lf =>
              simp only [hl, Except.bind_ok] at hne ⊢
              by_cases hex : ex.contains a
              · simp only [hex, if_true] at hne ⊢
                exact ih _ hne
              · rw [if_neg hex] at hne ⊢
                rw [if_neg hex]
                cases lf with
                | none => exact ih _ hne
                | some q =>
                  simp only at hne ⊢
                  by_cases hp : hasPrefix (getKey q.2.key) path
                  · simp only [hp, if_true]
                  · rw [if_neg hp] at hne ⊢
                    rw [if_neg hp]
                    exact ih _ hne

theorem revPrevious_succ (h : Heap V) (n : Nat) (it : RevIter) (hne : revPrevious h n it ≠ .error .fuel) :
    revPrevious h (n + 1) it = revPrevious h n it := by
  unfold revPrevious at hne ⊢
  simp only at hne ⊢
  rw [revNext_succ]
  intro h1; rw [h1] at hne; exact hne rfl

theorem revCollect_succ (h : Heap V) (n : Nat) (it : RevIter) (hne : revCollect h n it ≠ .error .fuel) :
    revCollect h (n + 1) it = revCollect h n it := by
  induction n generalizing it with
  | zero => exact absurd rfl hne
  | succ n ih =>
    rw [revCollect]
    rw [revCollect] at hne ⊢
    have h1 : revPrevious h (n + 1) it ≠ .error .fuel := by
      intro h1; rw [h1] at hne; exact hne rfl
    rw [revPrevious_succ h (n + 1) it h1]
    cases hr : revPrevious h (n + 1) it with
    | error e => rfl
    | ok p =>
      obtain ⟨r, it'⟩ := p
      simp only [hr, Except.bind_ok] at hne ⊢
      cases r with
      | none => rfl
      | some kv =>
        simp only at hne ⊢
        have h2 : revCollect h n it' ≠ .error .fuel := by
          intro h2; rw [h2] at hne; exact hne rfl
        rw [ih it' h2]

/-- From one step to any number of steps. -/
theorem fuel_le {α : Type} {f : Nat → R α} (hs : ∀ n, f n ≠ .error .fuel → f (n + 1) = f n)
    {n m : Nat} (hnm : n ≤ m) (hne : f n ≠ .error .fuel) : f m = f n := by
  induction hnm with
  | refl => rfl
  | step _ ih => rw [hs _ (by rw [ih]; exact hne), ih]

end Art
