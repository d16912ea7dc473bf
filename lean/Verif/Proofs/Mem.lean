import Verif.Model.Mem
import Verif.Proofs.Base
set_option linter.unusedVariables false
namespace Ulz

theorem rdN_mid {A M B : List Byte} {i n : Nat} (hi : i = A.length) (hn : n = M.length) :
    rdN (A ++ M ++ B) i n = .ok M := by
  subst hi; subst hn
  unfold rdN
  rw [if_pos (by simp)]
  simp

theorem rdN_all {x : List Byte} {n : Nat} (h : x.length = n) : rdN x 0 n = .ok x := by
  subst h
  simpa using rdN_mid (A := []) (M := x) (B := []) (i := 0) rfl rfl

theorem wrN_mid {A M B x : List Byte} {i : Nat} (hi : i = A.length) (hx : x.length = M.length) :
    wrN (A ++ M ++ B) i x = .ok (A ++ x ++ B) := by
  subst hi
  unfold wrN
  rw [if_pos (by simp; omega)]
  simp [put, hx]

theorem put_shift {T D S : List Byte} {k : Nat} (hk : k ≤ S.length) :
    put (T ++ D ++ S) (T.length + k) D = T ++ (D ++ S).take k ++ D ++ S.drop k := by
  unfold put
  congr 1
  · congr 1
    rw [List.append_assoc, List.take_append]
    rw [List.take_of_length_le (by omega)]
    simp
  · rw [List.append_assoc, List.drop_append, List.drop_eq_nil_of_le (by omega)]
    rw [List.drop_append, List.drop_eq_nil_of_le (by omega)]
    simp only [List.nil_append]
    congr 1; omega

/-- Making room for `k` bytes in front of the block `D`. -/
theorem memmove_up {T D S : List Byte} {dst src n k : Nat} (hs : src = T.length) (hd : dst = T.length + k)
    (hn : n = D.length) (hk : k ≤ S.length) :
    memmove (T ++ D ++ S) dst src n = .ok (T ++ (D ++ S).take k ++ D ++ S.drop k) := by
  unfold memmove
  rw [rdN_mid hs hn]
  simp only [ok_bind]
  unfold wrN
  rw [if_pos (by simp; omega), hd, put_shift hk]

/-- Removing the block `M` in front of `D`. -/
theorem memmove_down {T M D S : List Byte} {dst src n : Nat} (hs : src = T.length + M.length)
    (hd : dst = T.length) (hn : n = D.length) :
    memmove (T ++ M ++ D ++ S) dst src n =
      .ok (T ++ D ++ (M ++ D ++ S).drop D.length) := by
  unfold memmove
  have e : T ++ M ++ D ++ S = (T ++ M) ++ D ++ S := rfl
  rw [e, rdN_mid (by simp [hs]) hn]
  simp only [ok_bind]
  unfold wrN
  rw [if_pos (by simp; omega)]
  congr 1
  subst hd
  simp [put]

theorem flatten_length {xs : List (List Byte)} {k : Nat} (h : ∀ x ∈ xs, x.length = k) :
    xs.flatten.length = xs.length * k := by
  induction xs with
  | nil => simp
  | cons x xs ih =>
    simp only [List.flatten_cons, List.length_append, List.length_cons]
    rw [ih (fun y hy => h y (List.mem_cons_of_mem _ hy)), h x List.mem_cons_self, Nat.add_mul]
    omega

theorem realloc_some {f : Nat → Byte} {old : List Byte} {n : Nat} (h : old.length ≤ n) :
    ∃ junk, realloc (some f) old n = some (old ++ junk) ∧ junk.length = n - old.length := by
  refine ⟨(List.range (n - old.length)).map f, ?_, by simp⟩
  simp [realloc, List.take_of_length_le h]

theorem szt_of_lt {n : Nat} (h : n < 2^64) : szt n = n := Nat.mod_eq_of_lt h

theorem sztSub_of_le {a b : Nat} (h : b ≤ a) (ha : a < 2^64) : sztSub a b = a - b := by
  unfold sztSub; omega

end Ulz
