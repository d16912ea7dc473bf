import Verif.Model.Bmap
/-! Maps whose keys are strings: `bmap(char*, V)` with a comparison function that follows the pointers, as in
    tests/bmap_bench.c. What the keys point to may change between the calls. -/
namespace Ulz.Strmap
open Ulz.Bmap (Cfg BM Op Res)
open Ulz.Tglist (leVal)

/-- The memory the keys point into: the string at each address. -/
abbrev Mem := Nat → List Byte

/-- ISO C `strcmp` of two strings, given without their terminators; only the sign of its result is known. -/
def strcmp : List Byte → List Byte → Int
  | [], [] => 0
  | [], _ :: _ => -1
  | _ :: _, [] => 1
  | a :: s, b :: t => if a = b then strcmp s t else if a.toNat < b.toNat then -1 else 1

/-- tests/bmap_bench.c:9-13 (also tests/hbmap_bench.c:9-13, `mystrstrcmp` in tests/tglist_insert_test.c:10-14): the arguments are
    the bytes of two pointers. -/
def strstrcmp (μ : Mem) (x y : List Byte) : Int := strcmp (μ (leVal x)) (μ (leVal y))

/-- `bmap(char*, V)` with `sizeof(V) = vsz`, called while the memory is `μ`. -/
def cfg (bs : List Byte → List (List Byte) → (List Byte → List Byte → Int) → Option Nat) (vsz : Nat) (μ : Mem) : Cfg :=
  ⟨8, vsz, strstrcmp μ, bs⟩

/-- A history of calls, each with the memory at its time. -/
def run (c : Mem → Cfg) (b : BM) : List (Mem × Op) → C (BM × List Res)
  | [] => pure (b, [])
  | (μ, op) :: ops => do
    let (b, r) ← Bmap.step (c μ) b op
    let (b, rs) ← run c b ops
    pure (b, r :: rs)

end Ulz.Strmap
