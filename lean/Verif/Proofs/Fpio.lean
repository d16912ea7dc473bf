import Verif.Spec.Fpio
import Verif.Proofs.Fileparser
/-! Lemmas about the file parser under an arbitrary system. -/
namespace Ulz.Fpio
open Ulz.Fileparser (Fd FP findLF findLF_none findLF_some At at_next BUFSIZE getline)
open Ulz.Fileparser.Spec
open Ulz.Stringptr (SP)
open Spec

/-- What is delivered. -/
def got (f : Fd) (bufsize k : Nat) : List Byte := (f.data.drop f.off).take (min bufsize (k + 1))

theorem read_spec {f : Fd} {buf x : List Byte} {n k : Nat} (hx : got f n k = x) (hb : x.length ≤ buf.length) :
    read f buf n k = .ok ({ f with off := f.off + x.length }, x ++ buf.drop x.length, x.length) := by
  unfold read
  unfold got at hx
  simp only
  rw [hx]
  have := wrN_mid (A := []) (M := buf.take x.length) (B := buf.drop x.length) (x := x) (i := 0) rfl (by simp; omega)
  simp only [List.nil_append, List.take_append_drop] at this
  rw [this]; rfl

theorem got_len {f : Fd} {n k : Nat} : (got f n k).length ≤ n := by
  unfold got; rw [List.length_take]; omega

/-! ### One call -/

theorem io_fail {a : Ans} {e : Nat} {f : Fd} {p : FP} {buf : List Byte} {n : Nat} (hf : p.file ≠ 0) (h : a.r = .fail e) :
    readline_userbuf a f p buf n = .ok (f, p, buf, (e : Int)) := by
  unfold readline_userbuf
  rw [if_neg hf, h]; rfl

theorem io_eof {a : Ans} {k : Nat} {f : Fd} {p : FP} {buf : List Byte} {n : Nat} (hf : p.file ≠ 0) (h : a.r = .upTo k)
    (hr : f.data.drop f.off = []) : readline_userbuf a f p buf n = .ok (f, p, buf, -2) := by
  unfold readline_userbuf
  rw [if_neg hf, h]
  simp only
  rw [read_spec (x := []) (by rw [got, hr]; simp) (by simp), ok_bind]
  simp

theorem io_line {a : Ans} {k : Nat} {f : Fd} {p : FP} {buf l m : List Byte} {n : Nat} (hf : p.file ≠ 0) (h : a.r = .upTo k)
    (hx : got f n k = l ++ ch '\n' :: m) (hl : ch '\n' ∉ l) (hb : n ≤ buf.length) :
    ∃ J, (l ++ 0 :: J).length = buf.length ∧ readline_userbuf a f p buf n =
      .ok (⟨f.data, if a.s = none then p.fpos + (l.length + 1) else f.off + (got f n k).length⟩,
        { p with fpos := p.fpos + (l.length + 1), len := l.length }, l ++ 0 :: J, ((a.s.getD 0 : Nat) : Int)) := by
  have hg := got_len (f := f) (n := n) (k := k)
  rw [hx] at hg ⊢
  have hlen : (l ++ ch '\n' :: m).length ≤ buf.length := by omega
  refine ⟨m ++ buf.drop (l ++ ch '\n' :: m).length, ?_, ?_⟩
  · simp only [List.length_append, List.length_cons, List.length_drop] at hlen ⊢
    omega
  · unfold readline_userbuf
    rw [if_neg hf, h]
    simp only
    rw [read_spec hx hlen, ok_bind]
    simp only
    rw [if_neg (by simp), findLF_some hl (by simp) _ _ (by omega) (by simp; omega), ok_bind]
    simp only
    rw [List.append_assoc, List.cons_append, wr_append rfl, ok_bind]
    cases a.s <;> rfl

theorem io_piece {a : Ans} {k : Nat} {f : Fd} {p : FP} {buf x : List Byte} {n : Nat} (hf : p.file ≠ 0) (h : a.r = .upTo k)
    (hx : got f n k = x) (hl : ch '\n' ∉ x) (h0 : x ≠ []) (hs : x.length < n) (hb : n ≤ buf.length) :
    ∃ J, (x ++ 0 :: J).length = buf.length ∧ readline_userbuf a f p buf n =
      .ok (⟨f.data, f.off + x.length⟩, { p with fpos := p.fpos + (x.length + 1), len := x.length }, x ++ 0 :: J, 0) := by
  refine ⟨buf.drop (x.length + 1), by simp; omega, ?_⟩
  unfold readline_userbuf
  rw [if_neg hf, h]
  simp only
  rw [read_spec hx (by omega), ok_bind]
  simp only
  rw [if_neg (by simpa using h0), findLF_none hl _ _ (by omega) (by omega), ok_bind]
  simp only
  rw [if_pos hs, List.drop_eq_getElem_cons (by omega), wr_append rfl, ok_bind]
  rfl

theorem io_long {a : Ans} {k : Nat} {f : Fd} {p : FP} {buf x : List Byte} {n : Nat} (hf : p.file ≠ 0) (h : a.r = .upTo k)
    (hx : got f n k = x) (hl : ch '\n' ∉ x) (h0 : 0 < n) (hs : x.length = n) (hb : n ≤ buf.length) :
    readline_userbuf a f p buf n = .ok (⟨f.data, if a.s = none then p.fpos else f.off + n⟩, { p with len := n },
      x ++ buf.drop n, match a.s with | none => -3 | some e => (e : Int)) := by
  unfold readline_userbuf
  rw [if_neg hf, h]
  simp only
  rw [read_spec hx (by omega), ok_bind]
  simp only
  rw [if_neg (by omega), findLF_none hl _ _ (by omega) (by omega), ok_bind]
  simp only
  rw [if_neg (by omega), hs]
  cases a.s <;> rfl

theorem io_good {a : Ans} {f : Fd} {p : FP} {buf : List Byte} {n : Nat} (h : Good n a) :
    readline_userbuf a f p buf n = Fileparser.readline_userbuf f p buf n := by
  obtain ⟨⟨k, hk, hr⟩, hs⟩ := h
  unfold readline_userbuf Fileparser.readline_userbuf read Fileparser.read
  rw [hr, hs]
  simp only
  rw [Nat.min_eq_left hk]
  split
  · rfl
  · generalize hw : wrN buf 0 ((f.data.drop f.off).take n) = w
    cases w with
    | error e => rfl
    | ok b =>
      simp only [ok_bind, pure_eq_ok]
      split
      · rfl
      · generalize hg : findLF b ((f.data.drop f.off).take n).length (((f.data.drop f.off).take n).length + 1) 0 = g
        cases g with
        | error e => rfl
        | ok o =>
          cases o with
          | none => rfl
          | some i =>
            simp only [ok_bind]
            cases wr b i 0 <;> rfl

/-! ### Pieces -/

theorem rdN_front {l J : List Byte} : rdN (l ++ J) 0 l.length = .ok l := by
  simpa using rdN_mid (A := []) (M := l) (B := J) (i := 0) rfl rfl

theorem run_pieces {n : Nat} {l rest : List Byte} (hl : ch '\n' ∉ l) (hln : l.length < n) : ∀ (xs : List (List Byte)) f p buf,
    p.file ≠ 0 → (∀ x ∈ xs, x ≠ [] ∧ ch '\n' ∉ x ∧ x.length < n) → n ≤ buf.length →
    f.data.drop f.off = xs.flatten ++ l ++ ch '\n' :: rest →
    ∃ f' p', run n (xs.map (fun x => ⟨.upTo (x.length - 1), none⟩) ++ [⟨.upTo n, none⟩]) f p buf =
        .ok (xs.map (·, 0) ++ [(l, 0)], f', p') ∧ f'.data = f.data ∧ p'.file = p.file ∧
      f'.off = p.fpos + xs.flatten.length + l.length + 1 + xs.length ∧ p'.fpos = f'.off := by
  intro xs
  induction xs with
  | nil =>
    intro f p buf hf _ hb hd
    have hx : got f n n = l ++ ch '\n' :: rest.take (n - l.length - 1) := by
      rw [got, Nat.min_eq_left (by omega), hd]
      simp only [List.flatten_nil, List.nil_append]
      rw [List.take_append, List.take_of_length_le (by omega)]
      congr 1
      rw [show n - l.length = (n - l.length - 1) + 1 by omega, List.take_succ_cons]
      rfl
    obtain ⟨J, _, e⟩ := io_line (a := ⟨.upTo n, none⟩) (p := p) hf rfl hx hl hb
    refine ⟨⟨f.data, p.fpos + (l.length + 1)⟩, { p with fpos := p.fpos + (l.length + 1), len := l.length }, ?_, rfl, rfl,
      by simp; omega, rfl⟩
    simp only [List.map_nil, List.nil_append, run]
    rw [e, ok_bind]
    simp only
    rw [rdN_front, ok_bind]
    rfl
  | cons x xs ih =>
    intro f p buf hf hxs hb hd
    obtain ⟨h1, h2, h3⟩ := hxs x (by simp)
    have hpos := List.length_pos_iff.2 h1
    have hx : got f n (x.length - 1) = x := by
      rw [got, show min n (x.length - 1 + 1) = x.length by omega, hd]
      simp only [List.flatten_cons, List.append_assoc]
      rw [List.take_left]
    obtain ⟨J, hJ, e⟩ := io_piece (a := ⟨.upTo (x.length - 1), none⟩) (p := p) hf rfl hx h2 h1 h3 hb
    obtain ⟨f', p', k1, k2, k3, k4, k5⟩ := ih ⟨f.data, f.off + x.length⟩ { p with fpos := p.fpos + (x.length + 1), len := x.length }
      (x ++ 0 :: J) hf (fun y hy => hxs y (by simp [hy])) (by omega) (by
        simp only
        rw [← List.drop_drop, hd]
        simp only [List.flatten_cons, List.append_assoc]
        rw [List.drop_left])
    refine ⟨f', p', ?_, k2, k3, ?_, k5⟩
    · simp only [List.map_cons, List.cons_append, run]
      rw [e, ok_bind]
      simp only
      rw [rdN_front, ok_bind, k1]
      rfl
    · rw [k4]
      simp
      omega

/-! ### stringptrlist_fromfile -/

theorem readline_def (a : Ans) (f : Fd) (p : FP) {f' p' buf' r} (h : readline_userbuf a f p p.buf BUFSIZE = .ok (f', p', buf', r)) :
    readline a f p = .ok (f', { p' with buf := buf' }, r) := by
  unfold readline
  rw [h]; rfl

/-- The call does not return 0. -/
def Stops (a : Ans) (lf : Prop) : Prop :=
  (∃ e, e ≠ 0 ∧ a.r = .fail e) ∨ ((∃ k, 1024 ≤ k + 1 ∧ a.r = .upTo k) ∧ (∃ e, e ≠ 0 ∧ a.s = some e) ∧ lf)

theorem fromLoop_stop {ans : Nat → Ans} {mem fuel k f p L} {f' : Fd} {p' : FP} {r : Int} (h : readline (ans k) f p = .ok (f', p', r))
    (hr : r ≠ 0) : fromLoop ans mem (fuel + 1) k f p L = .ok (L, 1) := by
  rw [fromLoop, h, ok_bind]
  simp only
  rw [if_neg (fun h => hr h.1)]; rfl

theorem stop_read {a : Ans} {f : Fd} {p : FP} (hf : p.file ≠ 0) (h : ∃ e, e ≠ 0 ∧ a.r = .fail e) :
    ∃ f' p' r, readline a f p = .ok (f', p', r) ∧ r ≠ 0 := by
  obtain ⟨e, he, h⟩ := h
  exact ⟨_, _, _, readline_def _ _ _ (io_fail hf h), by omega⟩

theorem stop_seek {a : Ans} {f : Fd} {p : FP} (hf : p.file ≠ 0) (hb : p.buf.length = 1024) {l m : List Byte}
    (hd : f.data.drop f.off = l ++ ch '\n' :: m) (hl : ch '\n' ∉ l)
    (h1 : ∃ k, 1024 ≤ k + 1 ∧ a.r = .upTo k) (h2 : ∃ e, e ≠ 0 ∧ a.s = some e) :
    ∃ f' p' r, readline a f p = .ok (f', p', r) ∧ r ≠ 0 := by
  obtain ⟨k, hk, h1⟩ := h1
  obtain ⟨e, he, h2⟩ := h2
  have hg : got f BUFSIZE k = (l ++ ch '\n' :: m).take 1024 := by
    rw [got, hd, show min BUFSIZE (k + 1) = 1024 from Nat.min_eq_left hk]
  by_cases hs : l.length < 1024
  · obtain ⟨J, _, e1⟩ := io_line (a := a) (p := p) (buf := p.buf) (n := BUFSIZE) (m := m.take (1024 - l.length - 1)) hf h1 (by
      rw [hg, List.take_append, List.take_of_length_le (by omega)]
      congr 1
      rw [show 1024 - l.length = (1024 - l.length - 1) + 1 by omega, List.take_succ_cons]
      rfl) hl (by show 1024 ≤ _; omega)
    refine ⟨_, _, _, readline_def _ _ _ e1, ?_⟩
    rw [h2]
    simp only [Option.getD_some]
    omega
  · have e1 := io_long (a := a) (p := p) (buf := p.buf) (n := BUFSIZE) hf h1 hg
      (fun h => hl (by rw [List.take_append_of_le_length (by omega)] at h; exact List.mem_of_mem_take h)) (by decide)
      (by rw [List.length_take, List.length_append]; show _ = 1024; omega) (by show 1024 ≤ _; omega)
    refine ⟨_, _, _, readline_def _ _ _ e1, ?_⟩
    rw [h2]
    simp only
    omega

theorem good_readline {a : Ans} {f : Fd} {p : FP} (h : Good 1024 a) : readline a f p = Fileparser.readline f p := by
  unfold readline Fileparser.readline
  rw [show BUFSIZE = 1024 from rfl, io_good h]

theorem dup_some (m : Nat → Byte) {l J : List Byte} (h : l.length < 1024) :
    Stringptr.strdup (some m) (some ⟨l ++ 0 :: J, l.length⟩) = .ok (some (l ++ [0])) := by
  exact Stringptr.strdup_spec (by omega)

theorem fromLoop_spec {ans : Nat → Ans} {mem : Nat → Nat → Byte} : ∀ (full : List (List Byte)) (last : List Byte) fuel k n f p L,
    At f p full last → p.buf.length = 1024 → full.length + 1 < fuel → (∀ i, i < n → Good 1024 (ans (k + i))) →
    Stops (ans (k + n)) (n < full.length) →
    fromLoop ans mem fuel k f p L =
      .ok (L ++ (((linesOf full last).takeWhile Taken).take n).map (fun s => ⟨s ++ [0], s.length⟩), 1) := by
  intro full
  induction full with
  | nil =>
    intro last fuel k n f p L h hb hfu hg hs
    match fuel, hfu with
    | fuel + 2, _ =>
      have hr : f.data.drop f.off = last := by rw [h.rest]; simp
      have stop0 : n = 0 → fromLoop ans mem (fuel + 1 + 1) k f p L = .ok (L, 1) := by
        intro hn
        subst hn
        rcases hs with hs | ⟨_, _, hs⟩
        · obtain ⟨f', p', r, e, hr⟩ := stop_read (f := f) (p := p) h.file hs
          exact fromLoop_stop e hr
        · simp at hs
      match n, hg, stop0 with
      | 0, _, stop0 => rw [stop0 rfl]; simp
      | n + 1, hg, _ =>
        have g0 := good_readline (f := f) (p := p) (hg 0 (by omega))
        rw [Nat.add_zero] at g0
        by_cases hz : last = []
        · subst hz
          rw [fromLoop_stop (g0.trans (Fileparser.readline_def _ _ (Fileparser.rl_eof h.file hr))) (by decide)]
          simp [linesOf]
        · by_cases hlong : last.length < 1024
          · obtain ⟨J, e1, e2⟩ := Fileparser.rl_last (p := p) (buf := p.buf) (bufsize := BUFSIZE) h.file hr h.lf' hz hlong
              (by show 1024 ≤ _; omega)
            rw [fromLoop, g0, Fileparser.readline_def _ _ e1, ok_bind]
            simp only [getline]
            rw [if_pos ⟨trivial, by simpa using hz⟩, dup_some _ hlong, ok_bind]
            simp only
            have ht : ((linesOf ([] : List (List Byte)) last).takeWhile Taken).take (n + 1) = [last] := by
              simp [linesOf, hz, Taken, hlong]
            rw [ht]
            have hd : (⟨f.data, f.off + last.length⟩ : Fd).data.drop (f.off + last.length) = [] := by
              simp only
              rw [← List.drop_drop, hr, List.drop_length]
            cases n with
            | zero =>
              rcases hs with hs | ⟨_, _, hs⟩
              · obtain ⟨f', p', r, e, hr⟩ := stop_read (f := ⟨f.data, f.off + last.length⟩)
                  (p := { p with fpos := p.fpos + (last.length + 1), len := last.length, buf := last ++ 0 :: J }) h.file hs
                rw [fromLoop_stop e hr]
                rfl
              · simp at hs
            | succ n =>
              have g1 := good_readline (f := ⟨f.data, f.off + last.length⟩)
                (p := { p with fpos := p.fpos + (last.length + 1), len := last.length, buf := last ++ 0 :: J }) (hg 1 (by omega))
              rw [fromLoop_stop (g1.trans (Fileparser.readline_def _ _ (Fileparser.rl_eof h.file hd))) (by decide)]
              rfl
          · have e1 := Fileparser.rl_long (f := f) (p := p) (buf := p.buf) (bufsize := BUFSIZE) h.file (by decide)
              (by rw [hr]; show 1024 ≤ _; omega) (by rw [hr]; exact fun hh => h.lf' (List.mem_of_mem_take hh)) (by show 1024 ≤ _; omega)
            rw [fromLoop_stop (g0.trans (Fileparser.readline_def _ _ e1)) (by decide)]
            simp [linesOf, hz, Taken, hlong]
  | cons l full ih =>
    intro last fuel k n f p L h hb hfu hg hs
    match fuel, hfu with
    | fuel + 1, hfu =>
      obtain ⟨hr, hn⟩ := at_next h
      have hl := h.lf l (by simp)
      match n, hg, hs with
      | 0, _, hs =>
        have : ∃ f' p' r, readline (ans k) f p = .ok (f', p', r) ∧ r ≠ 0 := by
          rcases hs with hs | ⟨h1, h2, _⟩
          · exact stop_read h.file hs
          · exact stop_seek h.file hb hr hl h1 h2
        obtain ⟨f', p', r, e, hr⟩ := this
        rw [fromLoop_stop e hr]
        simp
      | n + 1, hg, hs =>
        have g0 := good_readline (f := f) (p := p) (hg 0 (by omega))
        rw [Nat.add_zero] at g0
        by_cases hlong : l.length < 1024
        · obtain ⟨J, e1, e2⟩ := Fileparser.rl_line (p := p) (buf := p.buf) (bufsize := BUFSIZE) h.file hr hl hlong (by show 1024 ≤ _; omega)
          by_cases hz : l = []
          · subst hz
            rw [fromLoop, g0, Fileparser.readline_def _ _ e1, ok_bind]
            simp [getline, linesOf, Taken]
          · rw [fromLoop, g0, Fileparser.readline_def _ _ e1, ok_bind]
            simp only [getline]
            rw [if_pos ⟨trivial, by simpa using hz⟩, dup_some _ hlong, ok_bind]
            simp only
            rw [ih last fuel (k + 1) n _ _ _ (hn _ _) (by simp only; omega) (by simp at hfu; omega)
              (fun i hi => by have := hg (i + 1) (by omega); rwa [show k + 1 + i = k + (i + 1) by omega])
              (by rw [show k + 1 + n = k + (n + 1) by omega]
                  rcases hs with hs | ⟨h1, h2, h3⟩
                  · exact .inl hs
                  · exact .inr ⟨h1, h2, by simpa using h3⟩)]
            have ht : (linesOf (l :: full) last).takeWhile Taken = l :: (linesOf full last).takeWhile Taken := by
              simp [linesOf, Taken, hz, hlong]
            rw [ht]
            simp
        · have e1 := Fileparser.rl_long (f := f) (p := p) (buf := p.buf) (bufsize := BUFSIZE) h.file (by decide)
            (by rw [hr, List.length_append]; show 1024 ≤ _; omega)
            (by rw [hr, List.take_append_of_le_length (by show 1024 ≤ _; omega)]; exact fun hh => hl (List.mem_of_mem_take hh)) (by show 1024 ≤ _; omega)
          rw [fromLoop_stop (g0.trans (Fileparser.readline_def _ _ e1)) (by decide)]
          simp [linesOf, Taken, hlong]

end Ulz.Fpio
