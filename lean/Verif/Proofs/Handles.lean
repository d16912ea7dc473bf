import Verif.Spec.Handles
import Verif.Proofs.Base
namespace Ulz.Handles
open Spec
open Ulz.Wholefile (chunk)

/-- A call that works on `d` and leaves it open, or on the memory. -/
def Inner (d : Nat) : Ev → Prop
  | .read e | .write e | .seek e => e = d
  | .malloc | .free => True
  | _ => False

theorem held_inner (d : Nat) : ∀ (t : List Ev), (∀ e ∈ t, Inner d e) → ∀ u l, held (t ++ u) l = held u l := by
  intro t
  induction t with
  | nil => intro _ u l; rfl
  | cons e t ih =>
    intro h u l
    have he := h e (by simp)
    have := ih (fun x hx => h x (by simp [hx])) u
    cases e <;> simp [Inner] at he <;> simp [held, this]

/-- The prefixes of `open d c`, inner calls, and possibly `close d`. -/
theorem prefix_shape {d : Nat} {c : Bool} {t u : List Ev} (h : ∀ e ∈ t, Inner d e) (hu : u = [] ∨ u = [.close d]) {pre post : List Ev}
    (hp : Ev.open d c :: (t ++ u) = pre ++ post) : pre = [] ∨ (∃ t', pre = .open d c :: t' ∧ t' <+: t) ∨
      (pre = .open d c :: (t ++ [.close d]) ∧ u = [.close d]) := by
  cases pre with
  | nil => exact .inl rfl
  | cons e pre =>
    right
    rw [List.cons_append] at hp
    injection hp with h1 h2
    subst h1
    rcases Nat.lt_or_ge t.length pre.length with hl | hl
    · right
      have hlen := congrArg List.length h2
      rcases hu with rfl | rfl
      · simp at hlen; omega
      · simp at hlen
        have h3 : post = [] := List.eq_nil_of_length_eq_zero (by omega)
        subst h3
        simp at h2
        exact ⟨by rw [h2], rfl⟩
    · left
      refine ⟨pre, rfl, ?_⟩
      have := congrArg (List.take pre.length) h2
      rw [List.take_append_of_le_length hl, List.take_left] at this
      have h3 := List.take_append_drop pre.length t
      rw [this] at h3
      exact ⟨_, h3⟩

theorem held_open {d : Nat} {c : Bool} {t : List Ev} (h : ∀ e ∈ t, Inner d e) : held (.open d c :: t) [] = [(d, c)] := by
  have := held_inner d t h [] [(d, c)]
  simpa [held] using this

theorem held_closed {d : Nat} {c : Bool} {t : List Ev} (h : ∀ e ∈ t, Inner d e) :
    held (.open d c :: (t ++ [.close d])) [] = [] := by
  have := held_inner d t h [.close d] [(d, c)]
  simpa [held] using this

theorem usesOwn_shape {d : Nat} {c : Bool} {t u : List Ev} (h : ∀ e ∈ t, Inner d e) (hu : u = [] ∨ u = [.close d]) :
    UsesOwn (.open d c :: (t ++ u)) := by
  intro pre e post hp x hx
  rcases prefix_shape h hu hp with rfl | ⟨t', rfl, ht⟩ | ⟨rfl, rfl⟩
  · simp at hp
    rw [← hp.1] at hx
    simp [on] at hx
  · have hin : ∀ e ∈ t', Inner d e := fun y hy => h y (ht.subset hy)
    rw [held_open hin]
    refine ⟨c, ?_⟩
    have hm : e ∈ t ++ u := by
      simp at hp
      rw [hp]; simp
    rw [List.mem_append] at hm
    rcases hm with hm | hm
    · have := h e hm
      cases e <;> simp [on, Inner] at hx this <;> simp [← hx, this]
    · rcases hu with rfl | rfl
      · simp at hm
      · simp at hm
        subst hm
        simp [on] at hx
        simp [hx]
  · have := congrArg List.length hp
    simp at this

theorem inherited_shape {d : Nat} {t u : List Ev} (h : ∀ e ∈ t, Inner d e) (hu : u = [] ∨ u = [.close d]) {pre : List Ev}
    (hp : pre <+: Ev.open d true :: (t ++ u)) : inherited pre = [] := by
  obtain ⟨post, hp⟩ := hp
  rcases prefix_shape h hu hp.symm with rfl | ⟨t', rfl, ht⟩ | ⟨rfl, -⟩
  · rfl
  · rw [inherited, held_open (fun y hy => h y (ht.subset hy))]; rfl
  · rw [inherited, held_closed h]; rfl

/-! ### the loops -/

theorem tofileLoop_inner (d size : Nat) : ∀ as pos, ∀ e ∈ (tofileLoop d size as pos).1, e = .write d := by
  intro as
  induction as with
  | nil => intro pos e he; simp only [tofileLoop] at he; split at he <;> simp at he
  | cons a as ih =>
    intro pos e he
    simp only [tofileLoop] at he
    split at he
    · cases a with
      | none => simpa using he
      | some k =>
        simp at he
        rcases he with he | he
        · exact he
        · exact ih _ e he
    · simp at he

theorem fromfileLoop_inner (d size : Nat) : ∀ as pos, ∀ e ∈ (fromfileLoop d size as pos).1, e = .read d ∨ e = .free := by
  intro as
  induction as with
  | nil => intro pos e he; simp only [fromfileLoop] at he; split at he <;> simp at he
  | cons a as ih =>
    intro pos e he
    simp only [fromfileLoop] at he
    split at he
    · cases a with
      | none => simpa using he
      | some k =>
        simp at he
        rcases he with he | he
        · exact .inl he
        · exact ih _ e he
    · simp at he

theorem fromfileLoop_blocks (d size : Nat) : ∀ as pos r, (fromfileLoop d size as pos).2 = some r →
    blocks (fromfileLoop d size as pos).1 = if r then 0 else -1 := by
  intro as
  induction as with
  | nil =>
    intro pos r h
    simp only [fromfileLoop] at h ⊢
    split at h
    · simp at h
    · simp at h; subst h; rename_i hc; simp [hc, blocks]
  | cons a as ih =>
    intro pos r h
    simp only [fromfileLoop] at h ⊢
    split at h
    · rename_i hc
      rw [if_pos hc]
      cases a with
      | none => simp at h; subst h; simp [blocks]
      | some k =>
        have := ih _ r h
        simpa [blocks, List.count_cons] using this
    · rename_i hc
      simp at h; subst h; simp [hc, blocks]

theorem listLoop_inner (d : Nat) : ∀ ns as, ∀ e ∈ (listLoop d ns as).1, e = .write d := by
  intro ns
  induction ns with
  | nil => intro as e he; simp [listLoop] at he
  | cons n ns ih =>
    intro as e he
    match as with
    | [] => simp [listLoop] at he
    | [a] => simp only [listLoop] at he; split at he <;> simpa using he
    | a :: b :: as =>
      simp only [listLoop] at he
      split at he
      · simpa using he
      · split at he
        · simpa using he
        · simp at he
          rcases he with he | he
          · exact he
          · exact ih as e he

theorem readline_inner (d : Nat) (a : Turn) : ∀ e ∈ (readline d a).1, e = .read d ∨ e = .seek d := by
  intro e he
  unfold readline at he
  repeat' split at he
  all_goals simp at he
  all_goals first | exact .inl he | exact he

theorem fromLoop_inner (d : Nat) : ∀ as k, ∀ e ∈ (fromLoop d as k).1, e = .read d ∨ e = .seek d ∨ e = .malloc := by
  intro as
  induction as with
  | nil => intro k e he; simp only [fromLoop] at he; split at he <;> simp at he
  | cons a as ih =>
    intro k e he
    have hr := readline_inner d a e
    simp only [fromLoop] at he
    cases hx : readline d a with
    | mk t r =>
      rw [hx] at he hr
      have hr' : e ∈ t → e = .read d ∨ e = .seek d ∨ e = .malloc := fun h => by
        rcases hr h with h | h
        · exact .inl h
        · exact .inr (.inl h)
      match r with
      | none => exact hr' he
      | some 0 => exact hr' he
      | some (n + 1) =>
        simp only at he
        split at he
        · exact hr' he
        · split at he
          · simp at he
            rcases he with he | he
            · exact hr' he
            · exact .inr (.inr he)
          · simp at he
            rcases he with he | he | he
            · exact hr' he
            · exact .inr (.inr he)
            · exact ih _ e he

/-! ### the programs of Model/Wholefile.lean -/

theorem rdN_length {b x : List Byte} {i n : Nat} (e : rdN b i n = .ok x) : x.length = n := by
  unfold rdN at e
  split at e
  · cases e; rw [List.length_take, List.length_drop]; omega
  · cases e

theorem tofileLoop_same {p : Stringptr.SP} (d : Nat) : ∀ as pos file f n, Wholefile.tofileLoop p as pos file = .ok (f, n) →
    (tofileLoop d p.size as pos).2 = some n := by
  intro as
  induction as with
  | nil =>
    intro pos file f n h
    simp only [Wholefile.tofileLoop, tofileLoop] at h ⊢
    split at h
    · cases h
    · rename_i hc
      injection h with h; injection h with h1 h2
      rw [if_neg hc, h2]
  | cons a as ih =>
    intro pos file f n h
    simp only [Wholefile.tofileLoop, tofileLoop] at h ⊢
    split at h
    · rename_i hc
      rw [if_pos hc]
      cases hx : rdN p.buf pos (chunk (p.size - pos)) with
      | error e => rw [hx] at h; cases h
      | ok x =>
        rw [hx] at h
        simp only [ok_bind] at h
        cases a with
        | none =>
          injection h with h; injection h with h1 h2
          simp [h2]
        | some k =>
          have hl : x.length = chunk (p.size - pos) := rdN_length hx
          simp only [List.length_take, hl] at h
          exact ih _ _ f n h
    · rename_i hc
      injection h with h; injection h with h1 h2
      rw [if_neg hc, h2]

theorem fromfileLoop_same {size : Nat} {data : List Byte} (d : Nat) (hs : size ≤ data.length) : ∀ as pos buf r,
    Wholefile.fromfileLoop data size as pos buf = .ok r → (fromfileLoop d size as pos).2 = some r.isSome := by
  intro as
  induction as with
  | nil =>
    intro pos buf r h
    simp only [Wholefile.fromfileLoop, fromfileLoop] at h ⊢
    split at h
    · cases h
    · rename_i hc
      injection h with h
      simp [hc, ← h]
  | cons a as ih =>
    intro pos buf r h
    simp only [Wholefile.fromfileLoop, fromfileLoop] at h ⊢
    split at h
    · rename_i hc
      rw [if_pos hc]
      cases a with
      | none =>
        injection h with h
        simp [← h]
      | some k =>
        simp only at h
        cases hx : wrN buf pos (((data.drop pos).take (chunk (size - pos))).take k) with
        | error e => rw [hx] at h; cases h
        | ok b =>
          rw [hx] at h
          simp only [ok_bind] at h
          have hl : (((data.drop pos).take (chunk (size - pos))).take k).length = min k (chunk (size - pos)) := by
            have : chunk (size - pos) ≤ size - pos := by unfold Wholefile.chunk; split <;> omega
            simp only [List.length_take, List.length_drop]
            omega
          rw [hl] at h
          exact ih _ _ r h
    · rename_i hc
      injection h with h
      simp [hc, ← h]

theorem blocks_append (t u : List Ev) : blocks (t ++ u) = blocks t + blocks u := by
  simp only [blocks, List.count_append]; omega

theorem blocks_zero {t : List Ev} (h : ∀ e ∈ t, e ≠ .malloc ∧ e ≠ .free) : blocks t = 0 := by
  have h1 : t.count .malloc = 0 := List.count_eq_zero.2 (fun hm => (h _ hm).1 rfl)
  have h2 : t.count .free = 0 := List.count_eq_zero.2 (fun hm => (h _ hm).2 rfl)
  simp [blocks, h1, h2]

theorem fromLoop_blocks (d : Nat) : ∀ as k r n, (fromLoop d as k).2 = some (r, n) →
    blocks (fromLoop d as k).1 + k = n ∨ blocks (fromLoop d as k).1 + k = n + 1 ∧ r = 0 ∧ ∃ a ∈ as, a.copy = true ∧ a.grow = false := by
  intro as
  induction as with
  | nil =>
    intro k r n h
    simp only [fromLoop] at h ⊢
    split at h
    · rename_i hc
      simp at h
      simp [hc, blocks, h.2]
    · simp at h
  | cons a as ih =>
    intro k r n h
    have hr : blocks (readline d a).1 = 0 := blocks_zero (fun e he => by
      rcases readline_inner d a e he with rfl | rfl <;> simp)
    simp only [fromLoop] at h ⊢
    cases hx : readline d a with
    | mk t q =>
      rw [hx] at h hr
      simp only at hr
      match q with
      | none => simp at h; simp [hr, h.2]
      | some 0 => simp at h; simp [hr, h.2]
      | some (m + 1) =>
        simp only at h ⊢
        cases hc : a.copy with
        | false => simp [hc] at h; simp [hr, h.2]
        | true =>
          cases hg : a.grow with
          | false =>
            simp [hc, hg] at h
            right
            refine ⟨?_, h.1.symm, a, by simp, hc, hg⟩
            simp only [Bool.not_true, Bool.not_false, Bool.false_eq_true, if_false, if_true]
            rw [blocks_append, hr, h.2]
            simp [blocks]; omega
          | true =>
            simp only [hc, hg, Bool.not_true, Bool.false_eq_true, if_false] at h ⊢
            have hb : blocks (t ++ Ev.malloc :: (fromLoop d as (k + 1)).1) = blocks (fromLoop d as (k + 1)).1 + 1 := by
              rw [blocks_append, hr]
              simp [blocks]; omega
            rw [hb]
            rcases ih (k + 1) r n h with h1 | ⟨h1, h2, b, hb1, hb2⟩
            · left; push_cast at h1; omega
            · right
              push_cast at h1
              exact ⟨by omega, h2, b, by simp [hb1], hb2⟩

end Ulz.Handles
