import Verif.Model.Dialog
/-! Words for concurrent runs: nothing here knows about processes. -/
namespace Ulz.Dialog.Spec

/-- `n` steps lead from `s` to `s'`. -/
inductive Run {α : Type} (R : α → α → Prop) : α → Nat → α → Prop
  | nil {s} : Run R s 0 s
  | snoc {s n s' s''} : Run R s n s' → R s' s'' → Run R s (n + 1) s''

/-- Some run leads from `s` to `s'`. -/
def Reach {α : Type} (R : α → α → Prop) (s s' : α) : Prop := ∃ n, Run R s n s'

/-- Nobody can go on. -/
def Stuck {α : Type} (R : α → α → Prop) (s : α) : Prop := ∀ s', ¬ R s s'

/-- Every schedule comes to the end `D`: the runs are bounded, and where nobody can go on, the end is reached. -/
def Always {α : Type} (R : α → α → Prop) (D : α → Prop) (s : α) : Prop :=
  (∃ N, ∀ n s', Run R s n s' → n ≤ N) ∧ ∀ s', Reach R s s' → Stuck R s' → D s'

/-- Some schedule comes to the end `D`. -/
def Sometimes {α : Type} (R : α → α → Prop) (D : α → Prop) (s : α) : Prop := ∃ s', Reach R s s' ∧ D s'

/-- Some schedule ends in a deadlock. -/
def Deadlocks {α : Type} (R : α → α → Prop) (D : α → Prop) (s : α) : Prop := ∃ s', Reach R s s' ∧ Stuck R s' ∧ ¬ D s'

/-- The bytes written to standard output, and to standard error. -/
def outs (w : List (Bool × Byte)) : List Byte := (w.filter fun x => !x.1).map Prod.snd
def errs (w : List (Bool × Byte)) : List Byte := (w.filter fun x => x.1).map Prod.snd

end Ulz.Dialog.Spec
