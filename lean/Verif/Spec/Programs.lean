import Verif.Base
import Verif.Spec.Numbers
/-! Specification of the comparison of files. -/
namespace Ulz.Programs.Spec
open Numbers.Spec

/-- Where two files differ, as far as the shorter one goes. -/
def differs (a b : List Byte) : List Bool := (a.zip b).map fun q => decide (q.1 ≠ q.2)

/-- Offsets and lengths of the maximal blocks of consecutive differences; the list starts at offset `k`. -/
def runs : (k : Nat) → List Bool → List (Nat × Nat)
  | _, [] => []
  | k, false :: t => runs (k + 1) t
  | k, true :: t => (k, (t.takeWhile id).length + 1) :: runs (k + (t.takeWhile id).length + 1) (t.dropWhile id)
  termination_by _ l => l.length
  decreasing_by
    · simp
    · have := (List.dropWhile_suffix (l := t) id).length_le
      simp only [List.length_cons]; omega

/-- A maximal block of `r` differences at offset `o`. -/
def IsRun (d : List Bool) (o r : Nat) : Prop :=
  0 < r ∧ o + r ≤ d.length ∧ (∀ i, o ≤ i → i < o + r → d[i]? = some true) ∧ d[o + r]? ≠ some true ∧ (o = 0 ∨ d[o - 1]? = some false)

/-- What the program reports for a block of `r` differences at offset `o` in files of `n` common bytes: the block itself if
    it ends far enough from the end, else a block that begins one byte too early, and the rest. -/
def pieces (n o r : Nat) : List (Int × Nat) :=
  if o + 2 * r ≤ n then [((o : Int), r)]
  else
    let l := (n - o) / 2 + 1
    ((o : Int) - 1, l) :: if l < r then pieces n (o + l) (r - l) else []
  termination_by r

/-- Everything the program reports for files of `n` common bytes; the list starts at offset `k`. -/
def reports (n k : Nat) (t : List Bool) : List (Int × Nat) := (runs k t).flatMap fun q => pieces n q.1 q.2

/-- The offset -1 is printed as the largest number. -/
def line (q : Int × Nat) : List Byte :=
  bytes! "difference at offset " ++ dec (q.1 % 2 ^ 64).toNat ++ bytes! " of size " ++ dec q.2 ++ bytes! "\n"

end Ulz.Programs.Spec
