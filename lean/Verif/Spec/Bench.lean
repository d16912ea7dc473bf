import Verif.Model.Bench
/-! Specification of the benchmark programs. -/
namespace Ulz.Bench.Spec

/-- The addresses are those of `buf` and of `N + 1` further blocks: they are pointers, distinct and not null. -/
structure EnvOk (e : Env) (N : Nat) : Prop where
  buf : e.buf < 2^64
  key : ∀ i ≤ N, e.key i < 2^64 ∧ e.key i ≠ e.buf ∧ e.key i ≠ 0
  inj : ∀ i ≤ N, ∀ j ≤ N, e.key i = e.key j → i = j

/-- The addresses of the first `N` copies. -/
def keys (e : Env) (N : Nat) : List Nat := (List.range N).map e.key

end Ulz.Bench.Spec
