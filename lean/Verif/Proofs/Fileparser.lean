import Verif.Model.Fileparser
import Verif.Spec.Stringptr
import Verif.Spec.Fileparser
import Verif.Proofs.Stringptr
/-! Lemmas about the fileparser model. -/
namespace Ulz.Fileparser
open Ulz.Stringptr (SP)
open Ulz.Fileparser.Spec
open Ulz.Stringptr.Spec (Holds HoldsAll)

theorem findLF_none {x J : List Byte} (hx : ch '\n' ∉ x) : ∀ fuel i, x.length < fuel + i → 0 < fuel →
    findLF (x ++ J) x.length fuel i = .ok none := by
  intro fuel
  induction fuel with
  | zero => intro i _ h; omega
  | succ fuel ih =>
    intro i hf _
    rw [findLF]
    by_cases hi : i < x.length
    · rw [if_pos hi, rd_append_left hi, rd_ok hi, ok_bind, if_neg (fun h : x[i] = ch '\n' => hx (h ▸ List.getElem_mem hi))]
      exact ih (i + 1) (by omega) (by omega)
    · rw [if_neg hi]; rfl

theorem findLF_some {l m J : List Byte} (hl : ch '\n' ∉ l) {len : Nat} (hlen : l.length < len) : ∀ fuel i, i ≤ l.length →
    l.length < fuel + i → findLF (l ++ ch '\n' :: m ++ J) len fuel i = .ok (some l.length) := by
  intro fuel
  induction fuel with
  | zero => intro i _ h; omega
  | succ fuel ih =>
    intro i h1 h2
    rw [findLF, if_pos (by omega)]
    by_cases hi : i < l.length
    · rw [List.append_assoc, rd_append_left hi, rd_ok hi, ok_bind, if_neg (fun h : l[i] = ch '\n' => hl (h ▸ List.getElem_mem hi)),
        ← List.append_assoc]
      exact ih (i + 1) (by omega) (by omega)
    · obtain rfl : i = l.length := by omega
      rw [List.append_assoc, rd_append_right (Nat.le_refl _)]
      simp

theorem read_spec {f : Fd} {buf x : List Byte} {n : Nat} (hx : (f.data.drop f.off).take n = x) (hb : x.length ≤ buf.length) :
    read f buf n = .ok ({ f with off := f.off + x.length }, x ++ buf.drop x.length, x.length) := by
  unfold read
  simp only
  rw [hx]
  have := wrN_mid (A := []) (M := buf.take x.length) (B := buf.drop x.length) (x := x) (i := 0) rfl (by simp; omega)
  simp only [List.nil_append, List.take_append_drop] at this
  rw [this]; rfl

/-! ### One call -/

theorem rl_eof {f : Fd} {p : FP} {buf : List Byte} {bufsize : Nat} (hf : p.file ≠ 0) (hr : f.data.drop f.off = []) :
    readline_userbuf f p buf bufsize = .ok (f, p, buf, -2) := by
  unfold readline_userbuf
  rw [if_neg hf, read_spec (x := []) (by rw [hr]; simp) (by simp), ok_bind]
  simp

theorem rl_line {f : Fd} {p : FP} {buf l m : List Byte} {bufsize : Nat} (hf : p.file ≠ 0)
    (hr : f.data.drop f.off = l ++ ch '\n' :: m) (hl : ch '\n' ∉ l) (hs : l.length < bufsize) (hb : bufsize ≤ buf.length) :
    ∃ J, readline_userbuf f p buf bufsize = .ok (⟨f.data, p.fpos + (l.length + 1)⟩,
      { p with fpos := p.fpos + (l.length + 1), len := l.length }, l ++ 0 :: J, 0) ∧ (l ++ 0 :: J).length = buf.length := by
  unfold readline_userbuf
  have hx : (f.data.drop f.off).take bufsize = l ++ ch '\n' :: m.take (bufsize - l.length - 1) := by
    rw [hr, List.take_append, List.take_of_length_le (by omega)]
    congr 1
    rw [show bufsize - l.length = (bufsize - l.length - 1) + 1 by omega, List.take_succ_cons]
    rfl
  generalize hm : m.take (bufsize - l.length - 1) = m' at hx
  have hlen : (l ++ ch '\n' :: m').length ≤ buf.length := by
    rw [← hx]; simp; omega
  rw [if_neg hf, read_spec hx hlen, ok_bind]
  simp only
  rw [if_neg (by simp), findLF_some hl (by simp) _ _ (by omega) (by simp; omega), ok_bind]
  simp only
  rw [List.append_assoc, List.cons_append, wr_append rfl, ok_bind]
  refine ⟨_, rfl, ?_⟩
  simp only [List.length_append, List.length_cons, List.length_drop] at hlen ⊢
  omega

theorem rl_last {f : Fd} {p : FP} {buf l : List Byte} {bufsize : Nat} (hf : p.file ≠ 0)
    (hr : f.data.drop f.off = l) (hl : ch '\n' ∉ l) (hn : l ≠ []) (hs : l.length < bufsize) (hb : bufsize ≤ buf.length) :
    ∃ J, readline_userbuf f p buf bufsize = .ok (⟨f.data, f.off + l.length⟩,
      { p with fpos := p.fpos + (l.length + 1), len := l.length }, l ++ 0 :: J, 0) ∧ (l ++ 0 :: J).length = buf.length := by
  unfold readline_userbuf
  rw [if_neg hf, read_spec (x := l) (by rw [hr, List.take_of_length_le (by omega)]) (by omega), ok_bind]
  simp only
  rw [if_neg (by simpa using hn), findLF_none hl _ _ (by omega) (by omega), ok_bind]
  simp only
  rw [if_pos hs, List.drop_eq_getElem_cons (by omega), wr_append rfl, ok_bind]
  exact ⟨_, rfl, by simp; omega⟩

theorem rl_long {f : Fd} {p : FP} {buf : List Byte} {bufsize : Nat} (hf : p.file ≠ 0) (h0 : 0 < bufsize)
    (hr : bufsize ≤ (f.data.drop f.off).length) (hl : ch '\n' ∉ (f.data.drop f.off).take bufsize) (hb : bufsize ≤ buf.length) :
    readline_userbuf f p buf bufsize = .ok (⟨f.data, p.fpos⟩, { p with len := bufsize },
      (f.data.drop f.off).take bufsize ++ buf.drop bufsize, -3) := by
  unfold readline_userbuf
  generalize hx : (f.data.drop f.off).take bufsize = x at hl
  have hxl : x.length = bufsize := by rw [← hx, List.length_take]; omega
  rw [if_neg hf, read_spec hx (by omega), ok_bind]
  simp only
  rw [if_neg (by omega), findLF_none hl _ _ (by omega) (by omega), ok_bind]
  simp only
  rw [if_neg (by omega), hxl]
  rfl

/-! ### Splitting a file into lines -/

/-- Every file is a sequence of lines, each with its line feed, and a last line without one (which may be empty). -/
theorem lines_exist (data : List Byte) : ∃ (full : List (List Byte)) (last : List Byte), Content data full last := by
  induction data with
  | nil => exact ⟨[], [], ⟨rfl, by simp, by simp⟩⟩
  | cons c data ih =>
    obtain ⟨full, last, ⟨h1, h2, h3⟩⟩ := ih
    by_cases hc : c = ch '\n'
    · subst hc
      exact ⟨[] :: full, last, ⟨by simp [h1], by simpa using h2, h3⟩⟩
    · match full, h1, h2 with
      | [], h1, _ => exact ⟨[], c :: last, ⟨by simpa using h1, by simp, by simp [h3, Ne.symm hc]⟩⟩
      | l :: full, h1, h2 =>
        refine ⟨(c :: l) :: full, last, ⟨by simp [h1], ?_, h3⟩⟩
        intro x hx
        rcases List.mem_cons.1 hx with rfl | hx
        · have := h2 l (by simp)
          simp [this, Ne.symm hc]
        · exact h2 x (by simp [hx])

/-- In sync: the rest of the file is a known sequence of lines; at the end of file the position may be off by one. -/
structure At (f : Fd) (p : FP) (full : List (List Byte)) (last : List Byte) : Prop where
  file : p.file ≠ 0
  rest : f.data.drop f.off = (full.map (· ++ [ch '\n'])).flatten ++ last
  pos : full ≠ [] ∨ last ≠ [] → p.fpos = f.off
  lf : ∀ l ∈ full, ch '\n' ∉ l
  lf' : ch '\n' ∉ last

theorem at_next {f : Fd} {p : FP} {l last : List Byte} {full : List (List Byte)} (h : At f p (l :: full) last) :
    f.data.drop f.off = l ++ ch '\n' :: ((full.map (· ++ [ch '\n'])).flatten ++ last) ∧
    ∀ b n, At ⟨f.data, p.fpos + (l.length + 1)⟩ { p with fpos := p.fpos + (l.length + 1), len := n, buf := b } full last := by
  have hr : f.data.drop f.off = l ++ ch '\n' :: ((full.map (· ++ [ch '\n'])).flatten ++ last) := by
    rw [h.rest]; simp
  refine ⟨hr, fun b n => ⟨h.file, ?_, fun _ => rfl, fun x hx => h.lf x (by simp [hx]), h.lf'⟩⟩
  simp only
  rw [h.pos (.inl (by simp)), ← List.drop_drop, hr]
  rw [List.append_cons, show l.length + 1 = (l ++ [ch '\n']).length by simp, List.drop_left]

/-! ### getnextlinelength -/

theorem readline_def (f : Fd) (p : FP) {f' p' buf' r} (h : readline_userbuf f p p.buf BUFSIZE = .ok (f', p', buf', r)) :
    readline f p = .ok (f', { p' with buf := buf' }, r) := by
  unfold readline
  rw [h]; rfl

theorem lenLoop_step {data : List Byte} {p : FP} {fuel res : Nat} (hf : p.file ≠ 0) (hb : p.buf.length = 1024)
    (h1 : 1024 ≤ (data.drop p.fpos).length) (h2 : ch '\n' ∉ (data.drop p.fpos).take 1024) :
    ∃ p' : FP, lenLoop (fuel + 1) ⟨data, p.fpos⟩ p res = lenLoop fuel ⟨data, p'.fpos⟩ p' (res + 1024) ∧ p'.fpos = p.fpos + 1024 ∧
      p'.file = p.file ∧ p'.buf.length = 1024 := by
  rw [lenLoop]
  have e := rl_long (f := ⟨data, p.fpos⟩) (p := p) (buf := p.buf) (bufsize := BUFSIZE) hf (by decide) h1 h2
    (by show 1024 ≤ _; omega)
  rw [readline_def _ _ e, ok_bind]
  simp only
  rw [if_pos trivial]
  refine ⟨{ p with len := BUFSIZE, buf := (data.drop p.fpos).take BUFSIZE ++ p.buf.drop BUFSIZE, fpos := p.fpos + BUFSIZE }, rfl, rfl, rfl, ?_⟩
  simp only
  rw [List.length_append, List.length_take, List.length_drop (l := p.buf)]
  have : BUFSIZE = 1024 := rfl
  omega

theorem take_drop_line {l m : List Byte} {c : Byte} (h : 1024 ≤ l.length) :
    (l ++ c :: m).take 1024 = l.take 1024 ∧ (l ++ c :: m).drop 1024 = l.drop 1024 ++ c :: m :=
  ⟨List.take_append_of_le_length h, List.drop_append_of_le_length h⟩

theorem lenLoop_line {data m : List Byte} : ∀ fuel (p : FP) res l, p.file ≠ 0 → p.buf.length = 1024 →
    data.drop p.fpos = l ++ ch '\n' :: m → ch '\n' ∉ l → l.length < 1024 * fuel →
    ∃ f' p' res', lenLoop fuel ⟨data, p.fpos⟩ p res = .ok (f', p', res', 0) ∧ f'.data = data ∧ p'.file = p.file ∧
      p'.buf.length = 1024 ∧ res' + p'.len = res + l.length := by
  intro fuel
  induction fuel with
  | zero => intro p res l _ _ _ _ h; omega
  | succ fuel ih =>
    intro p res l hf hb hr hl hfu
    by_cases hlong : 1024 ≤ l.length
    · obtain ⟨t1, t2⟩ := take_drop_line (m := m) (c := ch '\n') hlong
      obtain ⟨p', e1, e2, e3, e4⟩ := lenLoop_step (fuel := fuel) (res := res) hf hb
        (by rw [hr, List.length_append]; omega)
        (by rw [hr, t1]; exact fun h => hl (List.mem_of_mem_take h))
      obtain ⟨f', p2, res', k1, k2, k3, k4, k5⟩ := ih p' (res + 1024) (l.drop 1024) (by rw [e3]; exact hf) e4
        (by rw [e2, ← List.drop_drop, hr, t2]) (fun h => hl (List.mem_of_mem_drop h)) (by rw [List.length_drop]; omega)
      refine ⟨f', p2, res', by rw [e1, k1], k2, by rw [k3, e3], k4, ?_⟩
      rw [k5, List.length_drop]; omega
    · obtain ⟨J, e1, e2⟩ := rl_line (f := ⟨data, p.fpos⟩) (p := p) (buf := p.buf) (bufsize := BUFSIZE) hf hr hl
        (by show _ < 1024; omega) (by show 1024 ≤ _; omega)
      rw [lenLoop, readline_def _ _ e1, ok_bind]
      simp only
      rw [if_neg (by decide)]
      exact ⟨_, _, _, rfl, rfl, rfl, by simp only; rw [e2, hb], rfl⟩

theorem lenLoop_last {data : List Byte} : ∀ fuel (p : FP) res l, p.file ≠ 0 → p.buf.length = 1024 →
    data.drop p.fpos = l → ch '\n' ∉ l → l.length < 1024 * fuel →
    ∃ f' p' res' ret, lenLoop fuel ⟨data, p.fpos⟩ p res = .ok (f', p', res', ret) ∧ f'.data = data ∧ p'.file = p.file ∧
      p'.buf.length = 1024 ∧ (l.length % 1024 ≠ 0 → ret = 0 ∧ res' + p'.len = res + l.length) ∧
      (l.length % 1024 = 0 → ret = -2 ∧ p'.fpos = p.fpos + l.length ∧ f'.off = p.fpos + l.length) := by
  intro fuel
  induction fuel with
  | zero => intro p res l _ _ _ _ h; omega
  | succ fuel ih =>
    intro p res l hf hb hr hl hfu
    by_cases hlong : 1024 ≤ l.length
    · obtain ⟨p', e1, e2, e3, e4⟩ := lenLoop_step (fuel := fuel) (res := res) hf hb
        (by rw [hr]; exact hlong)
        (by rw [hr]; exact fun h => hl (List.mem_of_mem_take h))
      have hd : (l.drop 1024).length = l.length - 1024 := List.length_drop
      obtain ⟨f', p2, res', ret, k1, k2, k3, k4, k5, k6⟩ := ih p' (res + 1024) (l.drop 1024) (by rw [e3]; exact hf) e4
        (by rw [e2, ← List.drop_drop, hr]) (fun h => hl (List.mem_of_mem_drop h)) (by omega)
      refine ⟨f', p2, res', ret, by rw [e1, k1], k2, by rw [k3, e3], k4, fun h => ?_, fun h => ?_⟩
      · obtain ⟨a, b⟩ := k5 (by omega)
        exact ⟨a, by omega⟩
      · obtain ⟨a, b, c⟩ := k6 (by omega)
        exact ⟨a, by omega, by omega⟩
    · by_cases hz : l = []
      · subst hz
        rw [lenLoop, readline_def _ _ (rl_eof (f := ⟨data, p.fpos⟩) hf hr), ok_bind]
        simp only
        rw [if_neg (by decide)]
        exact ⟨_, _, _, _, rfl, rfl, rfl, hb, by simp, by simp⟩
      · obtain ⟨J, e1, e2⟩ := rl_last (f := ⟨data, p.fpos⟩) (p := p) (buf := p.buf) (bufsize := BUFSIZE) hf hr hl hz
          (by show _ < 1024; omega) (by show 1024 ≤ _; omega)
        rw [lenLoop, readline_def _ _ e1, ok_bind]
        simp only
        rw [if_neg (by decide)]
        have := List.length_pos_iff.2 hz
        exact ⟨_, _, _, _, rfl, rfl, rfl, by simp only; rw [e2, hb], fun _ => ⟨rfl, rfl⟩, fun h => by omega⟩

/-! ### Reading all lines -/

theorem rdN_front {l J : List Byte} : rdN (l ++ J) 0 l.length = .ok l := by
  simpa using rdN_mid (A := []) (M := l) (B := J) (i := 0) rfl rfl

theorem readAll_spec {bufsize : Nat} : ∀ (full : List (List Byte)) (last : List Byte) fuel f p buf, At f p full last →
    (∀ l ∈ full, l.length < bufsize) → last.length < bufsize → buf.length = bufsize → full.length + 1 < fuel →
    readAll bufsize fuel f p buf = .ok (linesOf full last, -2) := by
  intro full
  induction full with
  | nil =>
    intro last fuel f p buf h hs hl hb hfu
    match fuel, hfu with
    | fuel + 2, _ =>
      have hr : f.data.drop f.off = last := by rw [h.rest]; simp
      by_cases hz : last = []
      · subst hz
        rw [readAll, rl_eof h.file hr]
        rfl
      · obtain ⟨J, e1, e2⟩ := rl_last (p := p) (buf := buf) (bufsize := bufsize) h.file hr h.lf' hz hl (by omega)
        rw [readAll, e1, ok_bind]
        simp only
        rw [if_pos trivial, rdN_front, ok_bind, readAll, rl_eof (by exact h.file)]
        · simp [linesOf, hz]
        · simp only
          rw [← List.drop_drop, hr, List.drop_length]
  | cons l full ih =>
    intro last fuel f p buf h hs hl hb hfu
    match fuel, hfu with
    | fuel + 1, hfu =>
      obtain ⟨hr, hn⟩ := at_next h
      obtain ⟨J, e1, e2⟩ := rl_line (p := p) (buf := buf) (bufsize := bufsize) h.file hr (h.lf l (by simp)) (hs l (by simp)) (by omega)
      rw [readAll, e1, ok_bind]
      simp only
      rw [if_pos trivial, rdN_front, ok_bind,
        ih last fuel _ _ _ (hn p.buf l.length) (fun x hx => hs x (by simp [hx])) hl (by omega) (by simp at hfu; omega)]
      simp [linesOf]

/-! ### stringptrlist_fromfile -/

theorem fromLoop_spec {mem : Nat → Alloc} {grow : Nat → Bool} : ∀ (full : List (List Byte)) (last : List Byte) fuel k f p L,
    At f p full last → p.buf.length = 1024 → full.length + 1 < fuel →
    ∃ n, n ≤ ((linesOf full last).takeWhile Taken).length ∧
      (∀ i, i < n → mem (k + i) ≠ none ∧ grow (k + i) = true) ∧
      (n < ((linesOf full last).takeWhile Taken).length → ¬(mem (k + n) ≠ none ∧ grow (k + n) = true)) ∧
      fromLoop mem grow fuel k f p L = .ok (L ++ (((linesOf full last).takeWhile Taken).take n).map fun s => ⟨s ++ [0], s.length⟩,
        if n = ((linesOf full last).takeWhile Taken).length then 1 else 0) := by
  have stop : ∀ (L : List SP), L ++ (([] : List (List Byte)).take 0).map (fun s => (⟨s ++ [0], s.length⟩ : SP)) = L := by simp
  have strdup_none : ∀ p, Stringptr.strdup none (some p) = .ok none := fun p => rfl
  intro full
  induction full with
  | nil =>
    intro last fuel k f p L h hb hfu
    match fuel, hfu with
    | fuel + 2, _ =>
      have hr : f.data.drop f.off = last := by rw [h.rest]; simp
      by_cases hz : last = []
      · subst hz
        rw [fromLoop, readline_def _ _ (rl_eof h.file hr), ok_bind]
        exact ⟨0, by simp, by omega, by simp [linesOf], by simp [linesOf]⟩
      · by_cases hs : last.length < 1024
        · obtain ⟨J, e1, e2⟩ := rl_last (p := p) (buf := p.buf) (bufsize := BUFSIZE) h.file hr h.lf' hz hs (by show 1024 ≤ _; omega)
          have ht : (linesOf [] last).takeWhile Taken = [last] := by simp [linesOf, hz, Taken, hs]
          rw [ht]
          rw [fromLoop, readline_def _ _ e1, ok_bind]
          simp only [getline]
          rw [if_pos ⟨trivial, by simpa using hz⟩]
          cases hm : mem k with
          | none =>
            rw [strdup_none, ok_bind]
            exact ⟨0, by simp, by omega, by simp [hm], by simp⟩
          | some a =>
            rw [Stringptr.strdup_spec (by omega), ok_bind]
            simp only
            by_cases hg : grow k = true
            · rw [if_pos hg, fromLoop, readline_def _ _ (rl_eof (by exact h.file) ?_), ok_bind]
              · exact ⟨1, by simp, by intro i hi; obtain rfl : i = 0 := by omega
                                      simp [hm, hg], by simp, by simp⟩
              · simp only
                rw [← List.drop_drop, hr, List.drop_length]
            · rw [if_neg hg]
              exact ⟨0, by simp, by omega, by simp [hg], by simp⟩
        · have e := rl_long (p := p) (buf := p.buf) (bufsize := BUFSIZE) h.file (by decide) (f := f)
            (by rw [hr]; show 1024 ≤ _; omega) (by rw [hr]; exact fun hh => h.lf' (List.mem_of_mem_take hh)) (by show 1024 ≤ _; omega)
          have ht : (linesOf [] last).takeWhile Taken = [] := by simp [linesOf, hz, Taken, hs]
          rw [ht, fromLoop, readline_def _ _ e, ok_bind]
          exact ⟨0, by simp, by omega, by simp, by simp⟩
  | cons l full ih =>
    intro last fuel k f p L h hb hfu
    match fuel, hfu with
    | fuel + 1, hfu =>
      obtain ⟨hr, hn⟩ := at_next h
      have hll := h.lf l (by simp)
      by_cases hs : l.length < 1024
      · obtain ⟨J, e1, e2⟩ := rl_line (p := p) (buf := p.buf) (bufsize := BUFSIZE) h.file hr hll hs (by show 1024 ≤ _; omega)
        rw [fromLoop, readline_def _ _ e1, ok_bind]
        simp only [getline]
        by_cases hz : l = []
        · have ht : (linesOf (l :: full) last).takeWhile Taken = [] := by simp [linesOf, hz, Taken]
          rw [ht, if_neg (by simp [hz])]
          exact ⟨0, by simp, by omega, by simp, by simp⟩
        · rw [if_pos ⟨trivial, by simpa using hz⟩]
          have ht : (linesOf (l :: full) last).takeWhile Taken = l :: (linesOf full last).takeWhile Taken := by
            simp [linesOf, hz, Taken, hs]
          rw [ht]
          cases hm : mem k with
          | none =>
            rw [strdup_none, ok_bind]
            exact ⟨0, by simp, by omega, by simp [hm], by simp⟩
          | some a =>
            rw [Stringptr.strdup_spec (by omega), ok_bind]
            simp only
            by_cases hg : grow k = true
            · rw [if_pos hg]
              obtain ⟨n, k1, k2, k3, k4⟩ := ih last fuel (k + 1) _ _ (L ++ [⟨l ++ [0], l.length⟩]) (hn (l ++ 0 :: J) l.length)
                (by simp only; omega) (by simp at hfu; omega)
              refine ⟨n + 1, by simpa using k1, ?_, ?_, ?_⟩
              · intro i hi
                match i, hi with
                | 0, _ => simp [hm, hg]
                | i + 1, hi =>
                  have := k2 i (by omega)
                  rwa [Nat.add_assoc, Nat.add_comm 1 i] at this
              · intro hlt
                have := k3 (by simpa using hlt)
                rwa [Nat.add_assoc, Nat.add_comm 1 n] at this
              · rw [k4]; simp
            · rw [if_neg hg]
              exact ⟨0, by simp, by omega, by simp [hg], by simp⟩
      · have ht : (linesOf (l :: full) last).takeWhile Taken = [] := by simp [linesOf, Taken, hs]
        have e := rl_long (p := p) (buf := p.buf) (bufsize := BUFSIZE) h.file (by decide) (f := f)
            (by rw [hr, List.length_append]; show 1024 ≤ _; omega)
            (by rw [hr, List.take_append_of_le_length (by show 1024 ≤ _; omega)]; exact fun hh => hll (List.mem_of_mem_take hh))
            (by show 1024 ≤ _; omega)
        rw [ht, fromLoop, readline_def _ _ e, ok_bind]
        exact ⟨0, by simp, by omega, by simp, by simp⟩

theorem tofileLoop_spec : ∀ (l : List SP) (ss : List (List Byte)) (data : List Byte), HoldsAll l ss →
    tofileLoop l data = .ok (data ++ (ss.map (· ++ [ch '\n'])).flatten) := by
  intro l ss data h
  induction h generalizing data with
  | nil => simp [tofileLoop]
  | cons h1 h2 ih =>
    obtain ⟨j, rfl⟩ := Stringptr.holds_iff.1 h1
    rw [tofileLoop, rdN_front, ok_bind, ih]
    simp

theorem content_at {data : List Byte} {full : List (List Byte)} {last : List Byte} (h : Content data full last) {fd : Int}
    (hfd : fd ≠ 0) (u : List Byte) (n : Nat) : At (openFile data fd u n).1 (openFile data fd u n).2 full last :=
  ⟨hfd, by simpa [openFile] using h.eq, fun _ => rfl, h.lf, h.lf'⟩

theorem content_len {data : List Byte} {full : List (List Byte)} {last : List Byte} (h : Content data full last) :
    full.length ≤ data.length := by
  rw [h.eq]
  clear h
  induction full with
  | nil => simp
  | cons l full ih => simp at ih ⊢; omega

theorem fromfile_spec {mem : Nat → Alloc} {grow : Nat → Bool} {data uninit : List Byte} {fd : Int} {len : Nat} (L : List SP)
    {full : List (List Byte)} {last : List Byte} (h : Content data full last) (hfd : fd ≠ 0) (hb : uninit.length = 1024) :
    ∃ n, n ≤ ((linesOf full last).takeWhile Taken).length ∧
      (∀ i, i < n → mem i ≠ none ∧ grow i = true) ∧
      (n < ((linesOf full last).takeWhile Taken).length → ¬(mem n ≠ none ∧ grow n = true)) ∧
      fromfile mem grow data fd uninit len L = .ok (L ++ (((linesOf full last).takeWhile Taken).take n).map fun s => ⟨s ++ [0], s.length⟩,
        if n = ((linesOf full last).takeWhile Taken).length then 1 else 0) := by
  have := fromLoop_spec (mem := mem) (grow := grow) full last (data.length + 2) 0 _ _ L (content_at h hfd uninit len) hb
    (by have := content_len h; omega)
  simpa [fromfile] using this

theorem holdsAll_map (ss : List (List Byte)) : HoldsAll (ss.map fun s => ⟨s ++ [0], s.length⟩) ss := by
  induction ss with
  | nil => exact .nil
  | cons s ss ih => exact .cons ⟨rfl, ⟨[0], rfl⟩⟩ ih

theorem holdsAll_unique {l : List SP} {a b : List (List Byte)} (h1 : HoldsAll l a) (h2 : HoldsAll l b) : a = b := by
  induction h1 generalizing b with
  | nil => cases h2; rfl
  | cons x _ ih =>
    cases h2 with
    | cons y h =>
      rw [ih h]
      congr 1
      obtain ⟨x1, x2⟩ := x
      obtain ⟨y1, y2⟩ := y
      exact List.IsPrefix.eq_of_length (List.prefix_of_prefix_length_le x2 y2 (by omega)) (by omega)

theorem takeWhile_all {α : Type} {p : α → Bool} {l : List α} (h : ∀ x ∈ l, p x = true) : l.takeWhile p = l := by
  induction l with
  | nil => rfl
  | cons x l ih => rw [List.takeWhile_cons, h x (by simp), ih (fun y hy => h y (by simp [hy]))]; rfl

theorem mem_linesOf {full : List (List Byte)} {last s : List Byte} {data : List Byte} (h : Content data full last)
    (hs : s ∈ linesOf full last) : ch '\n' ∉ s := by
  unfold linesOf at hs
  rcases List.mem_append.1 hs with hs | hs
  · exact h.lf s hs
  · split at hs
    · simp at hs
    · rw [List.mem_singleton.1 hs]; exact h.lf'

end Ulz.Fileparser
