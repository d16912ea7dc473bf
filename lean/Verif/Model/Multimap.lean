import Verif.Model.Bmap
/-! A bmap used with `bmap_insert_nocheck`, which "inserts blindly without checking for existing items"
    (include/bmap.h:123-133), and with any comparison function. -/
namespace Ulz.Multimap
open Ulz.Bmap (Cfg BM Res)

/-- A call on the map: a blind insertion, or one of the calls of `Bmap.Op`. -/
inductive Op where
  | nocheck (k v : List Byte) (a1 a2 : Alloc)
  | base (op : Bmap.Op)

/-- One call: the map and what it returned. include/bmap.h:126-133 for the blind insertion. -/
def step (c : Cfg) (b : BM) : Op → C (BM × Res)
  | .nocheck k v a1 a2 => do
    let (b, r, _) ← Bmap.insert_nocheck c a1 a2 b k v
    pure (b, .idx r)
  | .base op => Bmap.step c b op

/-- A history of calls. -/
def run (c : Cfg) (b : BM) : List Op → C (BM × List Res)
  | [] => pure (b, [])
  | op :: ops => do
    let (b, r) ← step c b op
    let (b, rs) ← run c b ops
    pure (b, r :: rs)

end Ulz.Multimap
