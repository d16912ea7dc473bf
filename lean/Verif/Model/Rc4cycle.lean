import Verif.Model.Rc4
/-! The states that the loop of `rc4` goes through. -/
namespace Ulz.Rc4

/-- src/strlib/rc4.c:14-19: `box`, `y` and `z` after `n` iterations of the loop. Which bytes are read from `src` and written
    to `dst` has no influence on them and is left out. -/
def steps : (n : Nat) → (box : List Byte) → (y z : Nat) → C (List Byte × Nat × Nat)
  | 0, box, y, z => pure (box, y, z)
  | n + 1, box, y, z => do
    let (box, y, z, _) ← step box y z
    steps n box y z

end Ulz.Rc4
