import Verif.Base
/-! Specification of RFC 4648 base64, independent of the model. -/
namespace Ulz.Base64.Spec

/-- The RFC 4648 alphabet, by ranges. -/
def sym (i : Nat) : Byte :=
  if i < 26 then BitVec.ofNat 8 (65 + i)               -- 'A'..'Z'
  else if i < 52 then BitVec.ofNat 8 (97 + (i - 26))   -- 'a'..'z'
  else if i < 62 then BitVec.ofNat 8 (48 + (i - 52))   -- '0'..'9'
  else if i = 62 then 43 else 47                       -- '+' '/'

/-- RFC 4648 section 4: 24-bit groups as four 6-bit numbers, '=' padding. -/
def encode : List Byte → List Byte
  | [] => []
  | [a] => [sym (a.toNat / 4), sym (a.toNat % 4 * 16), 61, 61]
  | [a, b] => [sym (a.toNat / 4), sym (a.toNat % 4 * 16 + b.toNat / 16), sym (b.toNat % 16 * 4), 61]
  | a :: b :: c :: r =>
    sym (a.toNat / 4) :: sym (a.toNat % 4 * 16 + b.toNat / 16) ::
    sym (b.toNat % 16 * 4 + c.toNat / 64) :: sym (c.toNat % 64) :: encode r

/-- Padded base64 text: alphabet symbols (given by their numbers `v`), then at most two '=',
    in total whole groups of four. -/
def IsText (s : List Byte) (v : List Nat) (pad : Nat) : Prop :=
  (∀ x ∈ v, x < 64) ∧ pad ≤ 2 ∧ s = v.map sym ++ List.replicate pad 61 ∧ s.length % 4 = 0

/-- Bytes denoted by 6-bit numbers, four at a time. -/
def bytesOf : List Nat → List Byte
  | p :: q :: r :: s :: rest =>
    BitVec.ofNat 8 (p * 4 + q / 16) :: BitVec.ofNat 8 (q % 16 * 16 + r / 4) ::
    BitVec.ofNat 8 (r % 4 * 64 + s) :: bytesOf rest
  | _ => []

end Ulz.Base64.Spec
