import Verif.Spec.Saveread
import Verif.Proofs.Savers
import Verif.Proofs.Life
import Verif.Proofs.Mem
namespace Ulz.Saveread
open Ulz.Stringptr (SP new)
open Ulz.Stringptr.Spec (Holds)
open Ulz.Wholefile (chunk)
open Spec

/-- The file while one process saves. -/
def disk (old c : List Byte) : Option Nat → Savers.Sys
  | none => ⟨old, [⟨c, none⟩]⟩
  | some m => ⟨c.take m, [⟨c, some m⟩]⟩

theorem disk_write (old c : List Byte) (n k : Nat) (hn : n ≤ c.length) :
    Savers.step (disk old c (some n)) (.writes 0 k) = disk old c (some (n + ((c.drop n).take k).length)) := by
  simp only [disk, Savers.step, List.getElem?_cons_zero, List.set_cons_zero]
  have hl : (c.take n).length = n := by simp; omega
  have e1 : Savers.pwrite (c.take n) n ((c.drop n).take k) = c.take n ++ (c.drop n).take k := by
    have := Savers.pwrite_end (file := c.take n) (x := (c.drop n).take k)
    rwa [hl] at this
  rw [e1]
  have e2 : c.take n ++ (c.drop n).take k = c.take (n + ((c.drop n).take k).length) := by
    rw [List.take_add]
    congr 1
    rw [List.take_eq_take_iff]
    simp
  rw [e2]

theorem disk_step (old c : List Byte) (o : Option Nat) (ho : ∀ m, o = some m → m ≤ c.length) (e : Savers.Ev) :
    ∃ o', Savers.step (disk old c o) e = disk old c o' ∧ (∀ m, o' = some m → m ≤ c.length) ∧ (∀ m, o = some m → ∃ m', o' = some m' ∧ m ≤ m') := by
  cases o with
  | none =>
    cases e with
    | opens i =>
      cases i with
      | zero => exact ⟨some 0, rfl, fun m h => by cases h; omega, fun m h => by cases h⟩
      | succ i => exact ⟨none, rfl, ho, fun m h => by cases h⟩
    | writes i k => cases i <;> exact ⟨none, rfl, ho, fun m h => by cases h⟩
  | some n =>
    have hn := ho n rfl
    cases e with
    | opens i => cases i <;> exact ⟨some n, rfl, ho, fun m h => ⟨m, h, Nat.le_refl _⟩⟩
    | writes i k =>
      cases i with
      | succ i => exact ⟨some n, rfl, ho, fun m h => ⟨m, h, Nat.le_refl _⟩⟩
      | zero =>
        exact ⟨some (n + ((c.drop n).take k).length), disk_write old c n k hn, fun m h => by cases h; simp; omega, fun m h => ⟨_, rfl, by cases h; omega⟩⟩

/-- What a reader that has returned a string may have got. -/
def Outcome (W : Prop) (old c : List Byte) (p : SP) : Prop :=
  (∃ n, 0 < n ∧ n ≤ c.length ∧ Holds p (c.take n)) ∨
  ∃ q, q ≤ old.length ∧ (q = old.length ∨ old.length ≤ c.length) ∧ Holds p (mix old c q old.length) ∧ (W → q = old.length ∨ q % 65536 = 0)

/-- What has been read so far. -/
def Got (W : Prop) (old c : List Byte) (o : Option Nat) (size pos : Nat) (t : List Byte) : Prop :=
  (size = old.length ∧ ∃ q, q ≤ pos ∧ t = mix old c q pos ∧ (o = none → q = pos) ∧ (W → q % 65536 = 0)) ∨
  ∃ m, o = some m ∧ size ≤ m ∧ t = c.take pos

/-- The invariant of the reader. -/
def RInv (W : Prop) (old c : List Byte) (o : Option Nat) : Reader → Prop
  | .idle => True
  | .found n => 0 < n ∧ (n = old.length ∨ ∃ m, o = some m ∧ n ≤ m)
  | .reading p pos => pos < p.size ∧ ∃ t M, p.buf = t ++ M ++ [0] ∧ t.length = pos ∧ pos + M.length = p.size ∧ Got W old c o p.size pos t
  | .done none => True
  | .done (some p) => Outcome W old c p

theorem mix_self (old c : List Byte) (q : Nat) : mix old c q q = old.take q := by simp [mix]

theorem mix_zero (old c : List Byte) (n : Nat) : mix old c 0 n = c.take n := by simp [mix]

theorem mix_grow (old c : List Byte) (q pos k : Nat) (h : q ≤ pos) : mix old c q pos ++ (c.drop pos).take k = mix old c q (pos + k) := by
  unfold mix
  rw [show pos + k - q = (pos - q) + k by omega, List.take_add, List.drop_drop, show q + (pos - q) = pos by omega, List.append_assoc]

theorem prefix_take {x y : List Byte} (h : x <+: y) : x = y.take x.length := by
  obtain ⟨z, rfl⟩ := h
  simp

theorem chunk_eq (n : Nat) : chunk n = min n 65536 := by unfold chunk; split <;> omega

/-- A read gives a part of the file that starts at `pos`. -/
theorem part_prefix (F : List Byte) (pos a k : Nat) : ((F.drop pos).take a).take k <+: F.drop pos :=
  (List.take_prefix _ _).trans (List.take_prefix _ _)

theorem got_mono {W : Prop} {old c : List Byte} {o o' : Option Nat} (hm : ∀ m, o = some m → ∃ m', o' = some m' ∧ m ≤ m') {size pos : Nat} {t : List Byte}
    (h : Got W old c o size pos t) : Got W old c o' size pos t := by
  rcases h with ⟨h1, q, h2, h3, h4, h5⟩ | ⟨m, h1, h2, h3⟩
  · refine Or.inl ⟨h1, q, h2, h3, fun h => h4 ?_, h5⟩
    cases o with
    | none => rfl
    | some m => obtain ⟨m', e, _⟩ := hm m rfl; rw [h] at e; cases e
  · obtain ⟨m', e, hle⟩ := hm m h1
    exact Or.inr ⟨m', e, by omega, h3⟩

theorem rinv_mono {W : Prop} {old c : List Byte} {o o' : Option Nat} (hm : ∀ m, o = some m → ∃ m', o' = some m' ∧ m ≤ m') {r : Reader}
    (h : RInv W old c o r) : RInv W old c o' r := by
  cases r with
  | idle => trivial
  | found n =>
    refine ⟨h.1, ?_⟩
    rcases h.2 with h | ⟨m, h1, h2⟩
    · exact Or.inl h
    · obtain ⟨m', e, hle⟩ := hm m h1
      exact Or.inr ⟨m', e, by omega⟩
  | reading p pos =>
    obtain ⟨h0, t, M, h1, h2, h3, h4⟩ := h
    exact ⟨h0, t, M, h1, h2, h3, got_mono hm h4⟩
  | done r => cases r <;> exact h

/-- After `got` the loop goes on or returns. -/
theorem loop_inv {W : Prop} {old c : List Byte} {o : Option Nat} (ho : ∀ m, o = some m → m ≤ c.length) {p : SP} {pos : Nat} {t M : List Byte}
    (h1 : p.buf = t ++ M ++ [0]) (h2 : t.length = pos) (h3 : pos + M.length = p.size) (hp : 0 < p.size)
    (h4 : (p.size = old.length ∧ ∃ q, q ≤ pos ∧ t = mix old c q pos ∧ (o = none → q = pos) ∧ (W → q % 65536 = 0 ∨ q = old.length)) ∨
      ∃ m, o = some m ∧ p.size ≤ m ∧ t = c.take pos) : RInv W old c o (loop p pos) := by
  unfold loop
  by_cases hlt : pos < p.size
  · rw [if_pos hlt]
    refine ⟨hlt, t, M, h1, h2, h3, ?_⟩
    rcases h4 with ⟨a, q, b, d, e, f⟩ | h4
    · refine Or.inl ⟨a, q, b, d, e, fun w => ?_⟩
      rcases f w with f | f
      · exact f
      · omega
    · exact Or.inr h4
  · rw [if_neg hlt]
    have hpos : pos = p.size := by omega
    have hh : Holds p t := ⟨by omega, ⟨M ++ [0], by simp [h1]⟩⟩
    rcases h4 with ⟨a, q, b, d, e, f⟩ | ⟨m, a, b, d⟩
    · refine Or.inr ⟨q, by omega, ?_, ?_, fun w => (f w).symm⟩
      · by_cases hq : q = old.length
        · exact Or.inl hq
        · right
          have := congrArg List.length d
          simp only [mix, List.length_append, List.length_take, List.length_drop] at this
          omega
      · rw [← a, ← hpos, ← d]; exact hh
    · have := ho m a
      exact Or.inl ⟨p.size, hp, by omega, by rw [← hpos, ← d]; exact hh⟩

theorem new_room {f : Nat → Byte} {n : Nat} (h : n + 17 < 2 ^ 64) : ∃ b : List Byte, new (some f) n = .ok (some ⟨b ++ [0], n⟩) ∧ b.length = n :=
  ⟨_, Life.new_garbage h, by simp⟩

theorem new_none (n : Nat) : new none n = .ok none := rfl

/-- The string that is being filled holds `t` so far. -/
def At (p : SP) (t : List Byte) : Prop := ∃ M, p.buf = t ++ M ++ [0] ∧ t.length + M.length = p.size

/-- One read, exactly. -/
theorem read_exact {d : Savers.Sys} {p : SP} {t : List Byte} (h : At p t) (k : Nat) :
    ∃ p' : SP, p'.size = p.size ∧ At p' (t ++ (d.file.drop t.length).take (min (min (p.size - t.length) 65536) k)) ∧
      step ⟨d, .reading p t.length⟩ (.read (some k)) =
        .ok ⟨d, loop p' (t ++ (d.file.drop t.length).take (min (min (p.size - t.length) 65536) k)).length⟩ := by
  obtain ⟨M, h1, h3⟩ := h
  have ex : ((d.file.drop t.length).take (chunk (p.size - t.length))).take k =
      (d.file.drop t.length).take (min (min (p.size - t.length) 65536) k) := by
    rw [List.take_take, chunk_eq, Nat.min_comm k]
  generalize hx : (d.file.drop t.length).take (min (min (p.size - t.length) 65536) k) = x at *
  have hxl : x.length ≤ M.length := by rw [← hx]; simp; omega
  have hw : wrN p.buf t.length x = .ok (t ++ x ++ (M.drop x.length ++ [0])) := by
    have := wrN_mid (A := t) (M := M.take x.length) (B := M.drop x.length ++ [0]) (x := x) (i := t.length) rfl (by simp; omega)
    rw [h1]
    rw [← this]
    congr 1
    rw [List.append_assoc, List.append_assoc, ← List.append_assoc (M.take _), List.take_append_drop]
  refine ⟨⟨t ++ x ++ (M.drop x.length ++ [0]), p.size⟩, rfl, ⟨M.drop x.length, by simp, by simp; omega⟩, ?_⟩
  simp only [step]
  rw [ex, hw, List.length_append]
  rfl

/-- One read in the loop. -/
theorem read_step {W : Prop} {old c : List Byte} {o : Option Nat} (ho : ∀ m, o = some m → m ≤ c.length) {p : SP} {pos k : Nat}
    (h : RInv W old c o (.reading p pos)) (hk : W → 65536 ≤ k) :
    ∃ b : List Byte, b.length = p.buf.length ∧
      step ⟨disk old c o, .reading p pos⟩ (.read (some k)) =
        .ok ⟨disk old c o, loop ⟨b, p.size⟩ (pos + (((disk old c o).file.drop pos).take (min (min (p.size - pos) 65536) k)).length)⟩ ∧
      RInv W old c o (loop ⟨b, p.size⟩ (pos + (((disk old c o).file.drop pos).take (min (min (p.size - pos) 65536) k)).length)) := by
  obtain ⟨h0, t, M, h1, h2, h3, h4⟩ := h
  have ex : (((disk old c o).file.drop pos).take (chunk (p.size - pos))).take k =
      ((disk old c o).file.drop pos).take (min (min (p.size - pos) 65536) k) := by
    rw [List.take_take, chunk_eq, Nat.min_comm k]
  generalize hx : ((disk old c o).file.drop pos).take (min (min (p.size - pos) 65536) k) = x at *
  have hxl : x.length ≤ M.length := by rw [← hx]; simp; omega
  have hw : wrN p.buf pos x = .ok (t ++ x ++ (M.drop x.length ++ [0])) := by
    have := wrN_mid (A := t) (M := M.take x.length) (B := M.drop x.length ++ [0]) (x := x) (i := pos) h2.symm (by simp; omega)
    rw [h1]
    rw [← this]
    congr 1
    rw [List.append_assoc, List.append_assoc, ← List.append_assoc (M.take _), List.take_append_drop]
  refine ⟨t ++ x ++ (M.drop x.length ++ [0]), ?_, ?_, ?_⟩
  · rw [h1]; simp; omega
  · simp only [step]
    rw [ex, hw]
    rfl
  · refine loop_inv ho (t := t ++ x) (M := M.drop x.length) (by simp) (by simp [h2]) (by simp; omega) (show 0 < p.size by omega) ?_
    show (p.size = old.length ∧ _) ∨ _
    have hpre : x <+: (disk old c o).file.drop pos := by rw [← hx]; exact List.take_prefix _ _
    cases o with
    | none =>
      have hpre : x <+: old.drop pos := hpre
      rcases h4 with ⟨a, q, b, d, e, f⟩ | ⟨m, a, _⟩
      · have hq := e rfl
        subst hq
        refine Or.inl ⟨a, q + x.length, Nat.le_refl _, ?_, fun _ => rfl, fun w => ?_⟩
        · rw [mix_self, d, mix_self, List.take_add]
          congr 1
          exact prefix_take hpre
        · have hf := f w
          have hkk := hk w
          have hxl : x.length = min (p.size - q) 65536 := by
            rw [← hx]
            show ((old.drop q).take _).length = _
            simp; omega
          omega
      · cases a
    | some m =>
      have hm := ho m rfl
      have hpre : x <+: c.drop pos := by
        refine List.IsPrefix.trans hpre ?_
        show (c.take m).drop pos <+: c.drop pos
        rw [List.drop_take]
        exact List.take_prefix _ _
      have hxe := prefix_take hpre
      rcases h4 with ⟨a, q, b, d, _, f⟩ | ⟨m', a, b, d⟩
      · refine Or.inl ⟨a, q, by omega, ?_, fun h => (by cases h), fun w => Or.inl (f w)⟩
        rw [d, ← mix_grow old c q pos x.length b, ← hxe]
      · refine Or.inr ⟨m', a, b, ?_⟩
        rw [d, List.take_add, ← hxe]

/-- Every step keeps the invariant and is defined. -/
theorem step_inv {W : Prop} {old c : List Byte} (hold : old.length + 17 < 2 ^ 64) (hc : c.length + 17 < 2 ^ 64) {o : Option Nat}
    (ho : ∀ m, o = some m → m ≤ c.length) {r : Reader} (h : RInv W old c o r) (e : Ev) (he : W → ∀ k, e = .read (some k) → 65536 ≤ k) :
    ∃ o' r', step ⟨disk old c o, r⟩ e = .ok ⟨disk old c o', r'⟩ ∧ (∀ m, o' = some m → m ≤ c.length) ∧ RInv W old c o' r' ∧
      (∀ m, o = some m → ∃ m', o' = some m' ∧ m ≤ m') := by
  have hrefl : ∀ m, o = some m → ∃ m', o = some m' ∧ m ≤ m' := fun m hm => ⟨m, hm, Nat.le_refl _⟩
  cases e with
  | save e =>
    obtain ⟨o', e1, e2, e3⟩ := disk_step old c o ho e
    refine ⟨o', r, ?_, e2, rinv_mono e3 h, e3⟩
    simp only [step, e1]; rfl
  | stat =>
    cases r with
    | idle =>
      refine ⟨o, _, rfl, ho, ?_, hrefl⟩
      show RInv W old c o (if (disk old c o).file.length = 0 then .done none else .found (disk old c o).file.length)
      split
      · trivial
      · rename_i hne
        refine ⟨by omega, ?_⟩
        cases o with
        | none => exact Or.inl rfl
        | some m => exact Or.inr ⟨m, rfl, by show (c.take m).length ≤ m; simp; omega⟩
    | found n => exact ⟨o, _, rfl, ho, h, hrefl⟩
    | reading p pos => exact ⟨o, _, rfl, ho, h, hrefl⟩
    | done r => exact ⟨o, _, rfl, ho, h, hrefl⟩
  | opens a =>
    cases r with
    | found n =>
      have hn : n + 17 < 2 ^ 64 := by
        rcases h.2 with h | ⟨m, h1, h2⟩
        · omega
        · have := ho m h1; omega
      cases a with
      | none => exact ⟨o, .done none, rfl, ho, trivial, hrefl⟩
      | some f =>
        obtain ⟨b, e1, e2⟩ := new_room (f := f) hn
        refine ⟨o, loop ⟨b ++ [0], n⟩ 0, ?_, ho, ?_, hrefl⟩
        · simp only [step, e1]; rfl
        · refine loop_inv ho (t := []) (M := b) (by simp) rfl (by simp [e2]) (show 0 < n from h.1) ?_
          show (n = old.length ∧ _) ∨ ∃ m, o = some m ∧ n ≤ m ∧ _
          rcases h.2 with h | ⟨m, h1, h2⟩
          · exact Or.inl ⟨h, 0, Nat.le_refl _, by simp [mix], fun _ => rfl, fun _ => Or.inl rfl⟩
          · exact Or.inr ⟨m, h1, h2, by simp⟩
    | idle => exact ⟨o, _, rfl, ho, h, hrefl⟩
    | reading p pos => exact ⟨o, _, rfl, ho, h, hrefl⟩
    | done r => exact ⟨o, _, rfl, ho, h, hrefl⟩
  | read a =>
    cases r with
    | reading p pos =>
      cases a with
      | none => exact ⟨o, .done none, rfl, ho, trivial, hrefl⟩
      | some k =>
        obtain ⟨b, _, e1, e2⟩ := read_step ho h (fun w => he w k rfl)
        exact ⟨o, _, e1, ho, e2, hrefl⟩
    | idle => exact ⟨o, _, rfl, ho, h, hrefl⟩
    | found p => exact ⟨o, _, rfl, ho, h, hrefl⟩
    | done r => exact ⟨o, _, rfl, ho, h, hrefl⟩

theorem run_inv {W : Prop} {old c : List Byte} (hold : old.length + 17 < 2 ^ 64) (hc : c.length + 17 < 2 ^ 64) : ∀ (es : List Ev) (o : Option Nat) (r : Reader),
    (∀ m, o = some m → m ≤ c.length) → RInv W old c o r → (W → Whole es) →
    ∃ o' r', run ⟨disk old c o, r⟩ es = .ok ⟨disk old c o', r'⟩ ∧ (∀ m, o' = some m → m ≤ c.length) ∧ RInv W old c o' r' ∧
      (∀ m, o = some m → ∃ m', o' = some m' ∧ m ≤ m')
  | [], o, r, ho, h, _ => ⟨o, r, rfl, ho, h, fun m hm => ⟨m, hm, Nat.le_refl _⟩⟩
  | e :: es, o, r, ho, h, hw => by
    obtain ⟨o1, r1, e1, ho1, h1, hm1⟩ := step_inv hold hc ho h e (fun w k hk => hw w k (by rw [hk]; simp))
    obtain ⟨o2, r2, e2, ho2, h2, hm2⟩ := run_inv hold hc es o1 r1 ho1 h1 (fun w k hk => hw w k (by simp [hk]))
    refine ⟨o2, r2, ?_, ho2, h2, fun m hm => ?_⟩
    · unfold run
      rw [e1, ok_bind]
      exact e2
    · obtain ⟨m1, a, b⟩ := hm1 m hm
      obtain ⟨m2, a', b'⟩ := hm2 m1 a
      exact ⟨m2, a', by omega⟩

theorem run_append : ∀ (es fs : List Ev) (s : Sys), run s (es ++ fs) = (run s es >>= fun s => run s fs)
  | [], fs, s => rfl
  | e :: es, fs, s => by
    show (step s e >>= fun s => run s (es ++ fs)) = ((step s e >>= fun s => run s es) >>= fun s => run s fs)
    cases step s e with
    | error u => rfl
    | ok s1 => exact run_append es fs s1


theorem disk_length (old c : List Byte) (n : Nat) (hn : n ≤ c.length) : (disk old c (some n)).file.length = n := by
  show (c.take n).length = n
  simp; omega

/-- The other process saves the first `n` bytes. -/
theorem save_start (old c : List Byte) (n : Nat) (hn : n ≤ c.length) (r : Reader) :
    run ⟨disk old c none, r⟩ [.save (.opens 0), .save (.writes 0 n)] = .ok ⟨disk old c (some n), r⟩ := by
  show (Except.ok (⟨Savers.step (disk old c (some 0)) (.writes 0 n), r⟩ : Sys) : C Sys) = _
  rw [disk_write old c 0 n (by omega)]
  congr 3
  simp; omega

/-- The other process saves all. -/
theorem save_all (old c : List Byte) (o : Option Nat) (ho : ∀ m, o = some m → m ≤ c.length) (r : Reader) :
    run ⟨disk old c o, r⟩ [.save (.opens 0), .save (.writes 0 c.length)] = .ok ⟨disk old c (some c.length), r⟩ := by
  cases o with
  | none => exact save_start old c c.length (Nat.le_refl _) r
  | some m =>
    have := ho m rfl
    show (Except.ok (⟨Savers.step (disk old c (some m)) (.writes 0 c.length), r⟩ : Sys) : C Sys) = _
    rw [disk_write old c m c.length this]
    congr 3
    simp; omega

/-- Reads in portions of `K` bytes while nothing else happens. -/
theorem reads_up {d : Savers.Sys} {K : Nat} (hK : K ≤ 65536) : ∀ (j : Nat) (p : SP) (t : List Byte), At p t → t.length + K * j < p.size →
    t.length + K * j ≤ d.file.length → ∃ p' : SP, p'.size = p.size ∧ At p' (t ++ (d.file.drop t.length).take (K * j)) ∧
      run ⟨d, .reading p t.length⟩ (List.replicate j (.read (some K))) = .ok ⟨d, .reading p' (t.length + K * j)⟩
  | 0, p, t, h, _, _ => ⟨p, rfl, by simpa using h, rfl⟩
  | j + 1, p, t, h, h1, h2 => by
    rw [Nat.mul_succ] at h1 h2
    obtain ⟨p1, e1, e2, e3⟩ := read_exact (d := d) h K
    have hmin : min (min (p.size - t.length) 65536) K = K := by omega
    rw [hmin] at e2 e3
    have hl : (t ++ (d.file.drop t.length).take K).length = t.length + K := by simp; omega
    obtain ⟨p2, f1, f2, f3⟩ := reads_up (d := d) hK j p1 _ e2 (by rw [hl]; omega) (by rw [hl]; omega)
    refine ⟨p2, by omega, ?_, ?_⟩
    · rw [hl] at f2
      rw [List.append_assoc] at f2
      have : (d.file.drop t.length).take K ++ (d.file.drop (t.length + K)).take (K * j) = (d.file.drop t.length).take (K * (j + 1)) := by
        rw [Nat.mul_succ, Nat.add_comm (K * j), List.take_add, List.drop_drop]
      rwa [this] at f2
    · show (step _ _ >>= fun s => run s (List.replicate j (.read (some K)))) = _
      rw [e3, ok_bind]
      unfold loop
      rw [e1, if_pos (by rw [hl]; omega), f3, hl, Nat.mul_succ]
      congr 3
      omega

/-- Reads up to the end. -/
theorem reads_end {d : Savers.Sys} {K : Nat} (hK : 0 < K) : ∀ (n : Nat) (p : SP) (t : List Byte), At p t → t.length < p.size → p.size ≤ d.file.length →
    p.size - t.length ≤ n → ∃ (j : Nat) (p' : SP), Holds p' (t ++ (d.file.drop t.length).take (p.size - t.length)) ∧
      run ⟨d, .reading p t.length⟩ (List.replicate j (.read (some K))) = .ok ⟨d, .done (some p')⟩
  | 0, p, t, _, h1, _, h3 => by omega
  | n + 1, p, t, h, h1, h2, h3 => by
    obtain ⟨p1, e1, e2, e3⟩ := read_exact (d := d) h K
    generalize hm : min (min (p.size - t.length) 65536) K = m at *
    have hl : (t ++ (d.file.drop t.length).take m).length = t.length + m := by simp; omega
    have happ : (t ++ (d.file.drop t.length).take m) ++ (d.file.drop (t.length + m)).take (p.size - (t.length + m)) =
        t ++ (d.file.drop t.length).take (p.size - t.length) := by
      rw [List.append_assoc, show p.size - t.length = m + (p.size - (t.length + m)) by omega, List.take_add, List.drop_drop]
    by_cases hlt : t.length + m < p.size
    · obtain ⟨j, p2, f1, f2⟩ := reads_end (d := d) hK n p1 _ e2 (by rw [hl, e1]; exact hlt) (by rw [e1]; exact h2) (by rw [hl, e1]; omega)
      refine ⟨j + 1, p2, ?_, ?_⟩
      · rw [hl, e1, happ] at f1; exact f1
      · show (step _ _ >>= fun s => run s (List.replicate j (.read (some K)))) = _
        rw [e3, ok_bind]
        unfold loop
        rw [e1, if_pos (by rw [hl]; exact hlt), f2]
    · refine ⟨1, p1, ?_, ?_⟩
      · obtain ⟨M, g1, g2⟩ := e2
        have : m = p.size - t.length := by omega
        rw [← this]
        exact ⟨by rw [hl, e1]; omega, ⟨M ++ [0], by rw [g1]; simp⟩⟩
      · show (step _ _ >>= fun s => run s []) = _
        rw [e3, ok_bind]
        unfold loop
        rw [e1, if_neg (by rw [hl]; exact hlt)]
        rfl

/-- A file that is not empty, found and opened. -/
theorem open_step (d : Savers.Sys) (hd : 0 < d.file.length) (hl : d.file.length + 17 < 2 ^ 64) (f : Nat → Byte) :
    ∃ p : SP, p.size = d.file.length ∧ At p [] ∧ run ⟨d, .idle⟩ [.stat, .opens (some f)] = .ok ⟨d, .reading p 0⟩ := by
  obtain ⟨b, e1, e2⟩ := new_room (f := f) hl
  refine ⟨⟨b ++ [0], d.file.length⟩, rfl, ⟨b, by simp, by simp [e2]⟩, ?_⟩
  show (step ⟨d, if d.file.length = 0 then .done none else .found d.file.length⟩ (.opens (some f)) >>= fun s => run s []) = _
  rw [if_neg (by omega)]
  simp only [step, e1]
  show (Except.ok _ : C Sys) = _
  unfold loop
  rw [if_pos (show 0 < d.file.length from hd)]

theorem good_replicate (j K : Nat) : Good (List.replicate j (.read (some K))) := by
  constructor <;> simp [List.mem_replicate]

theorem good_append {es fs : List Ev} (h : Good es) (k : Good fs) : Good (es ++ fs) :=
  ⟨by simp [h.1, k.1], by simp [h.2, k.2]⟩

/-- Once the other process has finished, a reader that needs no more than there is comes to its end. -/
theorem finish {W : Prop} {old c : List Byte} (hold : old.length + 17 < 2 ^ 64) (hc : c.length + 17 < 2 ^ 64) (hle : old.length ≤ c.length) {r : Reader}
    (h : RInv W old c (some c.length) r) :
    ∃ es s, Good es ∧ run ⟨disk old c (some c.length), r⟩ es = .ok s ∧ Ended s := by
  have hlen := disk_length old c c.length (Nat.le_refl _)
  have hread : ∀ (p : SP) (t : List Byte), At p t → t.length < p.size → p.size ≤ c.length →
      ∃ es s, Good es ∧ run ⟨disk old c (some c.length), .reading p t.length⟩ es = .ok s ∧ Ended s := by
    intro p t h1 h2 h3
    obtain ⟨j, p', _, e⟩ := reads_end (d := disk old c (some c.length)) (K := 1) (by omega) _ p t h1 h2 (by rw [hlen]; exact h3) (Nat.le_refl _)
    exact ⟨_, _, good_replicate j 1, e, _, rfl⟩
  have hopen : ∀ n, 0 < n → n ≤ c.length → ∃ es s, Good es ∧ run ⟨disk old c (some c.length), .found n⟩ es = .ok s ∧ Ended s := by
    intro n h1 h2
    obtain ⟨b, e1, e2⟩ := new_room (f := fun _ => 0) (n := n) (by omega)
    obtain ⟨es, s, g1, g2, g3⟩ := hread ⟨b ++ [0], n⟩ [] ⟨b, by simp, by simp [e2]⟩ h1 h2
    refine ⟨.opens (some fun _ => 0) :: es, s, ⟨by simp [g1.1], by simp [g1.2]⟩, ?_, g3⟩
    show (step _ _ >>= fun s => run s es) = _
    simp only [step, e1]
    show run ⟨_, loop ⟨b ++ [0], n⟩ 0⟩ es = _
    unfold loop
    rw [if_pos (show 0 < n from h1)]
    exact g2
  cases r with
  | idle =>
    by_cases h0 : c.length = 0
    · refine ⟨[.stat], _, ⟨by simp, by simp⟩, rfl, ?_⟩
      show ∃ r, (if (disk old c (some c.length)).file.length = 0 then Reader.done none else _) = .done r
      rw [if_pos (by omega)]
      exact ⟨_, rfl⟩
    · obtain ⟨es, s, g1, g2, g3⟩ := hopen c.length (by omega) (Nat.le_refl _)
      refine ⟨.stat :: es, s, ⟨by simp [g1.1], by simp [g1.2]⟩, ?_, g3⟩
      show run ⟨_, if (disk old c (some c.length)).file.length = 0 then .done none else .found (disk old c (some c.length)).file.length⟩ es = _
      rw [if_neg (by omega), hlen]
      exact g2
  | found n =>
    refine hopen n h.1 ?_
    rcases h.2 with h | ⟨m, h1, h2⟩
    · omega
    · cases h1; exact h2
  | reading p pos =>
    obtain ⟨h0, t, M, h1, rfl, h3, h4⟩ := h
    refine hread p t ⟨M, h1, h3⟩ h0 ?_
    rcases h4 with ⟨a, _⟩ | ⟨m, a, b, _⟩
    · omega
    · cases a; exact b
  | done r => exact ⟨[], _, ⟨by simp, by simp⟩, rfl, r, rfl⟩

/-- A reader that wants more bytes than the new text has goes on for ever. -/
theorem forever {old c : List Byte} (hold : old.length + 17 < 2 ^ 64) (hc : c.length + 17 < 2 ^ 64) (hlt : c.length < old.length) :
    ∀ (es : List Ev) (m : Nat) (p : SP) (pos : Nat), m ≤ c.length → RInv False old c (some m) (.reading p pos) → p.size = old.length → pos ≤ c.length →
    Good es → ∃ m' p' pos', run ⟨disk old c (some m), .reading p pos⟩ es = .ok ⟨disk old c (some m'), .reading p' pos'⟩
  | [], m, p, pos, _, _, _, _, _ => ⟨m, p, pos, rfl⟩
  | e :: es, m, p, pos, hm, h, hs, hp, hg => by
    have hg' : Good es := ⟨fun h => hg.1 (by simp [h]), fun h => hg.2 (by simp [h])⟩
    have ho : ∀ m', some m = some m' → m' ≤ c.length := fun m' h => by cases h; exact hm
    cases e with
    | save e =>
      obtain ⟨o', e1, e2, e3⟩ := disk_step old c (some m) ho e
      obtain ⟨m', rfl, hmm⟩ := e3 m rfl
      show ∃ _ _ _, run ⟨Savers.step _ e, _⟩ es = _
      rw [e1]
      exact forever hold hc hlt es m' p pos (e2 m' rfl) (rinv_mono e3 h) hs hp hg'
    | stat => exact forever hold hc hlt es m p pos hm h hs hp hg'
    | opens a => exact forever hold hc hlt es m p pos hm h hs hp hg'
    | read a =>
      cases a with
      | none => exact absurd (by simp) hg.1
      | some k =>
        obtain ⟨b, _, e1, e2⟩ := read_step ho h (k := k) (fun w => w.elim)
        have hxl : (((disk old c (some m)).file.drop pos).take (min (min (p.size - pos) 65536) k)).length ≤ c.length - pos := by
          show (((c.take m).drop pos).take _).length ≤ _
          simp; omega
        generalize (((disk old c (some m)).file.drop pos).take (min (min (p.size - pos) 65536) k)).length = x at *
        show ∃ _ _ _, (step _ _ >>= fun s => run s es) = _
        rw [e1, ok_bind]
        have hlp : loop ⟨b, p.size⟩ (pos + x) = .reading ⟨b, p.size⟩ (pos + x) := by
          unfold loop
          rw [if_pos (show pos + x < p.size by omega)]
        rw [hlp] at e2 ⊢
        exact forever hold hc hlt es m _ _ hm e2 hs (by omega) hg'

end Ulz.Saveread
