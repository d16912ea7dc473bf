import Verif.Spec.Dialog
namespace Ulz.Dialog
open Spec

theorem Run.trans {α : Type} {R : α → α → Prop} {s t u : α} {n m : Nat} (h : Run R s n t) (k : Run R t m u) : Run R s (n + m) u := by
  induction k with
  | nil => exact h
  | snoc _ hs ih => exact Run.snoc ih hs

theorem Reach.trans {α : Type} {R : α → α → Prop} {s t u : α} (h : Reach R s t) (k : Reach R t u) : Reach R s u := by
  obtain ⟨n, h⟩ := h; obtain ⟨m, k⟩ := k
  exact ⟨_, Run.trans h k⟩

theorem Reach.one {α : Type} {R : α → α → Prop} {s t : α} (h : R s t) : Reach R s t := ⟨1, Run.snoc Run.nil h⟩
theorem Reach.refl {α : Type} {R : α → α → Prop} {s : α} : Reach R s s := ⟨0, Run.nil⟩

theorem Run.bound {α : Type} {R : α → α → Prop} (μ : α → Nat) (hμ : ∀ s t, R s t → μ t < μ s) {s t : α} {n : Nat} (h : Run R s n t) :
    n + μ t ≤ μ s := by
  induction h with
  | nil => omega
  | snoc _ hs ih => have := hμ _ _ hs; omega

theorem Reach.inv {α : Type} {R : α → α → Prop} (I : α → Prop) (hI : ∀ s t, I s → R s t → I t) {s t : α} (h : Reach R s t) (hs : I s) : I t := by
  obtain ⟨n, h⟩ := h
  induction h with
  | nil => exact hs
  | snoc _ hr ih => exact hI _ _ ih hr

/-- A bounded relation always gets stuck somewhere. -/
theorem exists_stuck {α : Type} {R : α → α → Prop} (μ : α → Nat) (hμ : ∀ s t, R s t → μ t < μ s) (s : α) : ∃ t, Reach R s t ∧ Stuck R t := by
  generalize hn : μ s = n
  induction n using Nat.strongRecOn generalizing s with
  | _ n ih =>
    by_cases h : ∃ t, R s t
    · obtain ⟨t, ht⟩ := h
      obtain ⟨u, hu, hs⟩ := ih (μ t) (by have := hμ s t ht; omega) t rfl
      exact ⟨u, Reach.trans (Reach.one ht) hu, hs⟩
    · exact ⟨s, Reach.refl, fun t ht => h ⟨t, ht⟩⟩

theorem Always.sometimes {α : Type} {R : α → α → Prop} {D : α → Prop} {s : α} (μ : α → Nat) (hμ : ∀ s t, R s t → μ t < μ s)
    (h : Always R D s) : Sometimes R D s := by
  obtain ⟨t, ht, hs⟩ := exists_stuck μ hμ s
  exact ⟨t, ht, h.2 t ht hs⟩

/-! ### Copying -/
namespace Copy

def weight (s : Copy) : Nat := 4 * s.rest.length + 3 * s.input.length + 2 * s.buf.length + s.output.length

theorem weight_step {c0 c1 b : Nat} {poll : Bool} (hb : 0 < b) (s t : Copy) (h : Step c0 c1 b poll s t) : weight t < weight s := by
  cases h with
  | write => simp [weight]; omega
  | take hp =>
    rename_i p o g
    have := List.length_pos_iff.2 hp
    simp only [weight, List.length_take, List.length_drop, List.length_nil]; omega
  | give => simp [weight]; omega
  | read => simp [weight]

/-- What holds in every reachable state. -/
structure Inv (c0 c1 b : Nat) (poll : Bool) (text : List Byte) (s : Copy) : Prop where
  eq : s.got ++ s.output ++ s.buf ++ s.input ++ s.rest = text
  i0 : s.input.length ≤ c0
  i1 : s.output.length ≤ c1
  ib : s.buf.length ≤ min b c0
  ig : poll = false → s.rest ≠ [] → s.got = []

theorem inv_start (c0 c1 b : Nat) (poll : Bool) (text : List Byte) : Inv c0 c1 b poll text (start text) :=
  ⟨by simp [start], by simp [start], by simp [start], by simp [start], fun _ _ => rfl⟩

theorem inv_step {c0 c1 b : Nat} {poll : Bool} {text : List Byte} (s t : Copy) (h : Inv c0 c1 b poll text s) (hs : Step c0 c1 b poll s t) :
    Inv c0 c1 b poll text t := by
  obtain ⟨h1, h2, h3, h4, h5⟩ := h
  cases hs with
  | write hp => exact ⟨by simpa using h1, by simp; omega, h3, h4, fun a _ => h5 a (by simp)⟩
  | take hp => exact ⟨by simpa using h1, by simp at h2 ⊢; omega, h3, by simp at h2 ⊢; omega, h5⟩
  | give ho => exact ⟨by simpa using h1, h2, by simp; omega, by simp at h4 ⊢; omega, h5⟩
  | read hr =>
    refine ⟨by simpa using h1, h2, by simp at h3 ⊢; omega, h4, fun a c => ?_⟩
    rcases hr with rfl | hr
    · exact absurd rfl c
    · rw [a] at hr; cases hr

theorem inv_reach {c0 c1 b : Nat} {poll : Bool} {text : List Byte} {s : Copy} (h : Reach (Step c0 c1 b poll) (start text) s) :
    Inv c0 c1 b poll text s := Reach.inv _ inv_step h (inv_start ..)

/-- A stuck state either is the end, or the caller waits for room while the process waits for room. -/
theorem stuck_cases {c0 c1 b : Nat} {poll : Bool} (h0 : 0 < c0) (h1 : 0 < c1) {s : Copy} (hs : Stuck (Step c0 c1 b poll) s) :
    Done s ∨ (s.rest ≠ [] ∧ c0 ≤ s.input.length ∧ s.buf ≠ [] ∧ c1 ≤ s.output.length ∧ poll = false) := by
  obtain ⟨r, p, q, o, g⟩ := s
  cases r with
  | nil =>
    left
    cases o with
    | cons x o => exact absurd (Step.read (Or.inl rfl)) (hs _)
    | nil =>
      cases q with
      | cons x q => exact absurd (Step.give (by simpa using h1)) (hs _)
      | nil =>
        cases p with
        | cons x p => exact absurd (Step.take (by simp)) (hs _)
        | nil => exact ⟨rfl, rfl, rfl, rfl⟩
  | cons x r =>
    right
    have hp : c0 ≤ p.length := by
      apply Decidable.byContradiction; intro h
      exact hs _ (Step.write (by omega))
    have hq : q ≠ [] := by
      rintro rfl
      exact hs _ (Step.take (by rintro rfl; simp at hp; omega))
    have ho : c1 ≤ o.length := by
      apply Decidable.byContradiction; intro h
      cases q with
      | nil => exact hq rfl
      | cons y q => exact hs _ (Step.give (by omega))
    refine ⟨by simp, hp, hq, ho, ?_⟩
    cases poll with
    | false => rfl
    | true =>
      cases o with
      | nil => simp at ho; omega
      | cons y o => exact absurd (Step.read (Or.inr rfl)) (hs _)

/-- The caller writes into the pipe as long as there is room. -/
theorem fill {c0 c1 b : Nat} {poll : Bool} (w r p q o g : List Byte) (h : p.length + w.length ≤ c0) :
    Reach (Step c0 c1 b poll) ⟨w ++ r, p, q, o, g⟩ ⟨r, p ++ w, q, o, g⟩ := by
  induction w generalizing p with
  | nil => simpa using Reach.refl
  | cons x w ih =>
    refine Reach.trans (Reach.one (Step.write (by simp at h; omega))) ?_
    have := ih (p ++ [x]) (by simp at h ⊢; omega)
    simpa using this

/-- Bytes that the process passes on one by one. -/
theorem pass {c0 c1 b : Nat} {poll : Bool} (h0 : 0 < c0) (hb : 0 < b) (w r o g : List Byte) (h : o.length + w.length ≤ c1) :
    Reach (Step c0 c1 b poll) ⟨w ++ r, [], [], o, g⟩ ⟨r, [], [], o ++ w, g⟩ := by
  induction w generalizing o with
  | nil => simpa using Reach.refl
  | cons x w ih =>
    obtain ⟨k, rfl⟩ : ∃ k, b = k + 1 := ⟨b - 1, by omega⟩
    refine Reach.trans (Reach.one (Step.write (by simpa using h0))) ?_
    refine Reach.trans (Reach.one (Step.take (by simp))) ?_
    refine Reach.trans (t := ⟨w ++ r, [], [], o ++ [x], g⟩) (Reach.one ?_) ?_
    · simpa using Step.give (r := w ++ r) (p := []) (x := x) (q := []) (o := o) (g := g) (c0 := c0) (b := k + 1) (poll := poll) (by simp at h; omega)
    have := ih (o ++ [x]) (by simp at h ⊢; omega)
    simpa using this

end Copy

/-! ### Two outputs -/
namespace Both

def weight (s : Both) : Nat := 2 * s.todo.length + s.out.length + s.err.length + (if s.second then 0 else 1)

theorem weight_step {c1 c2 : Nat} (s t : Both) (h : Step c1 c2 s t) : weight t < weight s := by
  cases h <;> simp [weight] <;> omega

theorem outs_cons_false (x : Byte) (t : List (Bool × Byte)) : outs ((false, x) :: t) = x :: outs t := by simp [outs]
theorem outs_cons_true (x : Byte) (t : List (Bool × Byte)) : outs ((true, x) :: t) = outs t := by simp [outs]
theorem errs_cons_false (x : Byte) (t : List (Bool × Byte)) : errs ((false, x) :: t) = errs t := by simp [errs]
theorem errs_cons_true (x : Byte) (t : List (Bool × Byte)) : errs ((true, x) :: t) = x :: errs t := by simp [errs]

structure Inv (c1 c2 : Nat) (w : List (Bool × Byte)) (s : Both) : Prop where
  e1 : s.got1 ++ s.out ++ outs s.todo = outs w
  e2 : s.got2 ++ s.err ++ errs s.todo = errs w
  i2 : s.err.length ≤ c2
  f : s.second = false → s.got2 = []
  t : s.second = true → s.todo = [] ∧ s.out = [] ∧ (errs w).length ≤ c2

theorem inv_start (c1 c2 : Nat) (w : List (Bool × Byte)) : Inv c1 c2 w (start w) :=
  ⟨by simp [start], by simp [start], by simp [start], fun _ => rfl, fun h => by cases h⟩

theorem inv_step {c1 c2 : Nat} {w : List (Bool × Byte)} (s t : Both) (h : Inv c1 c2 w s) (hs : Step c1 c2 s t) : Inv c1 c2 w t := by
  obtain ⟨h1, h2, h3, h4, h5⟩ := h
  cases hs with
  | out ho =>
    refine ⟨by simpa [outs_cons_false] using h1, by simpa [errs_cons_false] using h2, h3, h4, fun a => ?_⟩
    exact absurd (h5 a).1 (by simp)
  | err he =>
    refine ⟨by simpa [outs_cons_true] using h1, by simpa [errs_cons_true] using h2, by simp; omega, h4, fun a => ?_⟩
    exact absurd (h5 a).1 (by simp)
  | read1 => exact ⟨by simpa using h1, h2, h3, h4, fun a => by cases a⟩
  | eof1 =>
    refine ⟨h1, h2, h3, fun a => (by cases a), fun _ => ⟨rfl, rfl, ?_⟩⟩
    have := h4 rfl
    simp only at this h2 h3
    rw [← h2, this]
    simpa [errs] using h3
  | read2 => exact ⟨h1, by simpa using h2, by simp at h3 ⊢; omega, fun a => (by cases a), h5⟩

theorem inv_reach {c1 c2 : Nat} {w : List (Bool × Byte)} {s : Both} (h : Reach (Step c1 c2) (start w) s) : Inv c1 c2 w s :=
  Reach.inv _ inv_step h (inv_start ..)

end Both

/-! ### process_close -/
namespace Leave

def weight (s : Leave) : Nat := 2 * s.left + s.pipe + (if s.closed then 0 else 1) + (if s.fate.isSome then 0 else 1)

theorem weight_step {c1 : Nat} {code : BitVec 32} (s t : Leave) (h : Step c1 code s t) : weight t < weight s := by
  cases h <;> simp [weight] <;> omega

/-- With `k` bytes to write and `j` to read. -/
structure Inv (c1 : Nat) (code : BitVec 32) (k j : Nat) (s : Leave) : Prop where
  sum : s.left + s.pipe + j = k + s.want
  cap : s.pipe ≤ c1
  w : s.want ≤ j
  c : s.closed = true → s.want = 0
  f : ∀ x, s.fate = some x → (s.left = 0 ∧ x = .exited code) ∨ (s.closed = true ∧ 0 < s.left ∧ x = .killed 13 false)

theorem inv_start (c1 : Nat) (code : BitVec 32) (k j : Nat) : Inv c1 code k j (start k j) :=
  ⟨by simp [start], by simp [start], by simp [start], fun h => (by cases h), fun x h => (by cases h)⟩

theorem inv_step {c1 : Nat} {code : BitVec 32} {k j : Nat} (s t : Leave) (h : Inv c1 code k j s) (hs : Step c1 code s t) : Inv c1 code k j t := by
  obtain ⟨h1, h2, h3, h4, h5⟩ := h
  cases hs with
  | write hp => exact ⟨by simp at h1 ⊢; omega, by simp; omega, h3, h4, fun x h => (by cases h)⟩
  | sigpipe =>
    refine ⟨h1, h2, h3, h4, fun x h => Or.inr ⟨rfl, by simp, ?_⟩⟩
    exact (Option.some.inj h).symm
  | exit =>
    refine ⟨h1, h2, h3, h4, fun x h => Or.inl ⟨rfl, ?_⟩⟩
    exact (Option.some.inj h).symm
  | read => exact ⟨by simp at h1 ⊢; omega, by simp at h2 ⊢; omega, by simp at h3 ⊢; omega, fun h => (by cases h), h5⟩
  | close =>
    refine ⟨h1, h2, h3, fun _ => rfl, fun x h => ?_⟩
    rcases h5 x h with a | a
    · exact Or.inl a
    · exact absurd a.1 (by simp)

theorem inv_reach {c1 : Nat} {code : BitVec 32} {k j : Nat} {s : Leave} (h : Reach (Step c1 code) (start k j) s) : Inv c1 code k j s :=
  Reach.inv _ inv_step h (inv_start ..)

/-- The process writes `n` bytes and the caller reads each at once. -/
theorem pump {c1 : Nat} {code : BitVec 32} (hc : 0 < c1) (n l w : Nat) :
    Reach (Step c1 code) ⟨l + n, 0, w + n, false, none⟩ ⟨l, 0, w, false, none⟩ := by
  induction n with
  | zero => exact Reach.refl
  | succ n ih =>
    exact Reach.trans (Reach.one (Step.write hc)) (Reach.trans (Reach.one Step.read) ih)

/-- The process writes `n` bytes. -/
theorem push {c1 : Nat} {code : BitVec 32} (n l p w : Nat) (h : p + n ≤ c1) :
    Reach (Step c1 code) ⟨l + n, p, w, false, none⟩ ⟨l, p + n, w, false, none⟩ := by
  induction n generalizing p with
  | zero => exact Reach.refl
  | succ n ih =>
    refine Reach.trans (Reach.one (Step.write (by omega))) ?_
    have := ih (p + 1) (by omega)
    rwa [show p + 1 + n = p + (n + 1) by omega] at this

end Leave
end Ulz.Dialog
