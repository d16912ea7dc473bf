import Verif.Model.Held
import Verif.Model.Ssalloc
import Verif.Model.Spgrow
import Verif.Model.Hashlist
/-! Model of the addresses that the containers hand out: the buffers and blocks of the other models, with the addresses at which
they are. -/
namespace Ulz.Aligned
open Held

/-- The pointer `sblist_get(l, i)` (src/sblist/sblist.c:43-50) as an address, if the list's buffers are at the addresses `base`;
    `none` is NULL. -/
def sblist_addr (base : Nat → Nat) (s : HSB) (i : Nat) : Option Nat := (sbget s i).map fun p => base p.buf + p.off

/-- The pointer `&tglist_get(l, i)` (include/tglist.h:96) as an address. -/
def tglist_addr (isz : Nat) (base : Nat → Nat) (s : HTG) (i : Nat) : Nat := base (tgptr isz s i).buf + (tgptr isz s i).off

/-- What `ssa_alloc` (include/ssalloc.c:63-65, 78-94) returns as an address, if the pool is at `base`. -/
def ssa_addr (base : Nat) (r : Option Nat) : Option Nat := r.map (base + ·)

/-- The member `ptr` of a stringptr (src/stringptr/stringptr_new.c:8) as an address, if the blocks are at the addresses `base`. -/
def text_addr (base : Nat → Nat) (h : Spgrow.Heap) (p : Nat) : C Nat := do
  let d ← Spgrow.hdr h p
  pure (base d.ptr.blk + d.ptr.off)

end Ulz.Aligned
