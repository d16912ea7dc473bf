import Verif.Model.Stringptr
/-! Replacing until nothing is left to replace. -/
namespace Ulz.Scrub
open Ulz.Stringptr

/-- A caller: `while(stringptr_contains(s, what)) s = stringptr_replace(s, what, whit);` that stops with NULL if there is no memory
    (src/stringptr/stringptr_contains.c:4-12, src/stringptrlist/stringptr_replace.c:3-27). Simplified: the old strings are not freed; more
    than `rounds` tests of the condition are `hang`. -/
def scrub (a : Alloc) (what whit : SP) : (rounds : Nat) → SP → C (Option SP)
  | 0, _ => .error .hang
  | n + 1, s => do
    if ← contains s what then do
      let (_, t) ← replace a s what whit (s.size + 2)
      match t with
      | none => pure none
      | some t => scrub a what whit n t
    else pure (some s)

end Ulz.Scrub
