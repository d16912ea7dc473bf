import Verif.Model.Strmap
/-! Hash maps whose keys are strings: `hbmap(char*, V, N)` with a comparison and a hash function that follow the pointers, as in
    tests/hbmap_bench.c. What the keys point to may change between the calls. -/
namespace Ulz.Hstrmap
open Ulz.Bmap (HCfg BM Op HRes)
open Ulz.Strmap (Mem)
open Ulz.Tglist (leVal)

/-- `hbmap(char*, V, N)` with `sizeof(V) = vsz`, the comparison function of tests/hbmap_bench.c:9-13 and any function `hf` of the
    string as its hash function (tests/hbmap_bench.c:15-26 is one), called while the memory is `μ`. -/
def hcfg (bs : List Byte → List (List Byte) → (List Byte → List Byte → Int) → Option Nat) (vsz : Nat) (hf : List Byte → BitVec 32)
    (μ : Mem) : HCfg :=
  { Strmap.cfg bs vsz μ with hash := fun k => hf (μ (leVal k)) }

/-- A history of calls, each with the memory at its time. -/
def run (c : Mem → HCfg) (h : List BM) : List (Mem × Op) → C (List BM × List HRes)
  | [] => pure (h, [])
  | (μ, op) :: ops => do
    let (h, r) ← Bmap.hstep (c μ) h op
    let (h, rs) ← run c h ops
    pure (h, r :: rs)

end Ulz.Hstrmap
