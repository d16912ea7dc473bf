import Verif.Model.Sha512
import Verif.Model.Md5
/-! One context of src/sha512/sha512.c or src/md5/md5.c used for any sequence of calls. -/
namespace Ulz.Shactx
open Ulz.Sha512

/-- src/sha512/sha512.c:112-117: sha512_init on memory that holds anything, in particular a used context. The loops that store byte by byte are `wrN`. -/
def init (c : Ctx) : C Ctx := do
  let h ← wrN c.h 0 iv
  let x ← wrN c.x 0 (List.replicate 256 0)
  pure ⟨h, x, 0⟩

/-- The calls on a SHA-512 context (include/sha512.h:12-14). -/
inductive Op where
  | init
  | update (buf : List Byte)
  | fin

/-- One call. The result of sha512_end is a pointer to `h` of the context (src/sha512/sha512.c:136), so what it points to is that field at the time
    of reading. -/
def step (c : Ctx) : Op → C Ctx
  | .init => init c
  | .update buf => sha512_update c buf
  | .fin => sha512_end c

/-- A sequence of calls. -/
def hist (c : Ctx) : List Op → C Ctx
  | [] => pure c
  | o :: os => do hist (← step c o) os

/-- The calls on an MD5 context (include/md5.h:14-16). `junk` of `fin` is what the local buffer of md5_end holds at its start (src/md5/md5.c:203), `dst` the
    bytes at the destination. -/
inductive MOp where
  | init
  | update (data : List Byte)
  | fin (junk dst : List Byte)

/-- A sequence of calls of src/md5/md5.c:137-220 on one context: the context at the end and what each md5_end left at its destination. md5_init leaves the
    buffer (src/md5/md5.c:137-141). -/
def mhist (c : Md5.Ctx) : List MOp → C (Md5.Ctx × List (List Byte))
  | [] => pure (c, [])
  | .init :: os => mhist (Md5.md5_init c.buf) os
  | .update d :: os => do mhist (← Md5.md5_update c d) os
  | .fin junk dst :: os => do
    let r ← Md5.md5_end c junk dst
    let (c, rs) ← mhist c os
    pure (c, r :: rs)

end Ulz.Shactx
