import Verif.Model.Guardhist
/-! What the system promises, and the pages of an allocation. -/
namespace Ulz.Guard.Spec

/-- The system places a mapping on unmapped pages within the address space; the sizes are those for which the length of the mapping can be computed. -/
def Granted (ps : Nat) (s : Space) : Op → Prop
  | .alloc n (some B) _ => n + 2 * ps < 2 ^ 64 ∧ (B + n / ps + 2) * ps ≤ 2 ^ 64 ∧ ∀ i, B ≤ i → i < B + n / ps + 2 → s i = .unmapped
  | _ => True

/-- The system keeps its promise at every call. -/
def Valid (ps : Nat) : St → List Op → Prop
  | _, [] => True
  | st, o :: os => Granted ps st.space o ∧ Valid ps (step ps st o) os

/-- The pages that belong to an allocation `(p, n)`: from that of the byte before `p` to that of the byte behind the last. -/
def Has (ps : Nat) (e : Nat × Nat) (i : Nat) : Prop := (e.1 - 1) / ps ≤ i ∧ i ≤ (e.1 + e.2) / ps

end Ulz.Guard.Spec
