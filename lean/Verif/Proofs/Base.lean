import Verif.Base
/-! Lemmas about the base vocabulary. -/
namespace Ulz

@[simp] theorem ok_bind {α β : Type} (a : α) (f : α → C β) : ((Except.ok a : C α) >>= f) = f a := rfl
/-- `ok_bind` as a propositional rewrite (not by unfolding), for terms the kernel should not evaluate. -/
theorem ok_bind' {α β : Type} (a : α) (f : α → C β) (r : C β) (h : f a = r) :
    ((Except.ok a : C α) >>= f) = r := h
/-- `ok_bind` as a simp lemma that is not applied by unfolding. -/
theorem ok_bindE {α β : Type} (a : α) (f : α → C β) : ((Except.ok a : C α) >>= f) = f a := ok_bind' a f _ rfl
@[simp] theorem error_bind {α β : Type} (e : UB) (f : α → C β) :
    ((Except.error e : C α) >>= f) = Except.error e := rfl
@[simp] theorem pure_eq_ok {α : Type} (a : α) : (pure a : C α) = Except.ok a := rfl
@[simp] theorem throw_eq_error {α : Type} (e : UB) : (throw e : C α) = Except.error e := rfl

theorem wr_ok {b : List Byte} {i : Nat} {v : Byte} (h : i < b.length) : wr b i v = .ok (b.set i v) := by
  simp [wr, h]

theorem rd_ok {b : List Byte} {i : Nat} (h : i < b.length) : rd b i = .ok b[i] := by
  simp [rd, h]

theorem rd_append_right {a b : List Byte} {i : Nat} (h : a.length ≤ i) :
    rd (a ++ b) i = rd b (i - a.length) := by
  simp [rd, List.getElem?_append_right h]

theorem rd_append_left {a b : List Byte} {i : Nat} (h : i < a.length) :
    rd (a ++ b) i = rd a i := by
  simp [rd, List.getElem?_append_left h]

@[simp] theorem rd_cons_zero {a : Byte} {b : List Byte} : rd (a :: b) 0 = .ok a := rfl
@[simp] theorem rd_cons_succ {a : Byte} {b : List Byte} {i} : rd (a :: b) (i+1) = rd b i := by
  simp [rd]

theorem wr_append {p r : List Byte} {x v : Byte} {i : Nat} (h : i = p.length) :
    wr (p ++ x :: r) i v = .ok (p ++ v :: r) := by
  subst h; simp [wr]

theorem put_length {b xs : List Byte} {i : Nat} (h : i + xs.length ≤ b.length) :
    (put b i xs).length = b.length := by
  simp [put]; omega

@[simp] theorem put_nil {b : List Byte} {i : Nat} : put b i [] = b := by
  simp [put]

theorem put_zero {b xs : List Byte} : put b 0 xs = xs ++ b.drop xs.length := by
  simp [put]

/-- Writing just after an already written block extends the block. -/
theorem wr_put {b xs : List Byte} {i j : Nat} {v : Byte} (hj : j = i + xs.length) (h : j < b.length) :
    wr (put b i xs) j v = .ok (put b i (xs ++ [v])) := by
  subst hj
  rw [wr_ok (by rw [put_length (by omega)]; exact h)]
  congr 1
  unfold put
  have h1 : (b.take i ++ xs).length = i + xs.length := by simp; omega
  rw [List.drop_eq_getElem_cons (l := b) (i := i + xs.length) h]
  rw [List.set_append_right _ _ (by omega)]
  simp [h1, Nat.add_assoc]

theorem wr_put0 {b xs : List Byte} {j : Nat} {v : Byte} (hj : j = xs.length) (h : j < b.length) :
    wr (put b 0 xs) j v = .ok (put b 0 (xs ++ [v])) := wr_put (by omega) h

/-- Overwriting the last byte of a stored block. -/
theorem wr_put_mid' {b xs : List Byte} {x v : Byte} {j : Nat} (hj : j = xs.length)
    (_h : xs.length + 1 ≤ b.length) : wr (put b 0 (xs ++ [x])) j v = .ok (put b 0 (xs ++ [v])) := by
  subst hj
  have e : ∀ z, put b 0 (xs ++ [z]) = xs ++ z :: b.drop (xs.length + 1) := by intro z; simp [put]
  rw [e, e, wr_append rfl]

theorem put_take {b xs : List Byte} (n : Nat) (h : n ≤ xs.length) :
    (put b 0 xs).take n = xs.take n := by
  rw [put_zero, List.take_append_of_le_length h]

end Ulz
