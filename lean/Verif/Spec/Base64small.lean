import Verif.Spec.Base64
/-! Specification: the part of a text that a base64 decoder accepts before it finds an error. -/
namespace Ulz.Base64.Spec

/-- `s` begins with the symbols of the numbers `v` and `j` padding characters, at most two, and `r`, what follows,
    does not continue them: it is empty or begins with a character that is not allowed there. -/
structure Start (s : List Byte) (v : List Nat) (j : Nat) (r : List Byte) : Prop where
  eq : s = v.map sym ++ (List.replicate j 61 ++ r)
  sym : ∀ x ∈ v, x < 64
  pad : j ≤ 2
  stop : ∀ c, r.head? = some c → (j < 2 → c ≠ 61) ∧ (j = 0 → ∀ x < 64, c ≠ Spec.sym x)

end Ulz.Base64.Spec
