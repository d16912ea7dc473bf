import Verif.Spec.Listfiles
import Verif.Proofs.Filelist
import Verif.Proofs.Output
import Verif.Props.Filelist
import Verif.Props.Stringptr
/-! Lemmas for the programs that list a directory tree. -/
namespace Ulz.Listfiles
open Ulz.Listfiles.Spec Ulz.Filelist.Spec
open Ulz.Stringptr (SP)
open Ulz.Stringptr.Spec (Holds HoldsAll)
open Ulz.Output (log_putln)

/-- The text with every path on a line of its own. -/
abbrev text (l : List (List Byte)) : List Byte := l.flatMap (· ++ [ch '\n'])

theorem isdir_spec {s : SP} {p : List Byte} (h : Holds s p) : isdir s = .ok (decide (p.getLast? = some (ch '/'))) := by
  obtain ⟨h1, t, h2⟩ := h
  unfold isdir
  rcases List.eq_nil_or_concat p with rfl | ⟨q, c, rfl⟩
  · rw [if_neg (by simpa using h1)]; rfl
  · rw [if_pos (by rw [h1]; simp)]
    have : rd s.buf (s.size - 1) = .ok c := by
      rw [← h2, h1]
      simp [rd]
    rw [this]
    simp [ok_bind, pure_eq_ok]

theorem line_spec {s : SP} {p : List Byte} (h : Holds s p) : line (some s) = .ok (p ++ [ch '\n']) := by
  unfold line
  rw [Output.log_puts_spec h]
  rfl

theorem filter_entries {flags : BitVec 32} {f : List Byte → List Byte} (keep : List Byte → Prop) [DecidablePred keep] :
    ∀ (ps : List (List Byte)), (∀ q ∈ ps, keep q → q ≠ [] ∧ Name flags q (f q) ∧ ¬ Dropped flags (f q)) →
      (∀ q ∈ ps, ¬ keep q → q ≠ [] ∧ ∃ n, Name flags q n ∧ Dropped flags n) → Entries flags ps ((ps.filter keep).map f) := by
  intro ps
  induction ps with
  | nil => intro _ _; exact .nil
  | cons q ps ih =>
    intro h1 h2
    have ih := ih (fun x hx => h1 x (List.mem_cons_of_mem _ hx)) (fun x hx => h2 x (List.mem_cons_of_mem _ hx))
    by_cases h : keep q
    · rw [List.filter_cons_of_pos (by simpa using h), List.map_cons]
      obtain ⟨a, b, c⟩ := h1 q List.mem_cons_self h
      exact .keep a b c ih
    · rw [List.filter_cons_of_neg (by simpa using h)]
      obtain ⟨a, n, b, c⟩ := h2 q List.mem_cons_self h
      exact .drop a b c ih

theorem entries_mem {e : Env} {p : List Byte} : ∀ {t : Tree}, t.Mounted e p → ∀ q ∈ t.entries p, ∃ n, ValidName n ∧ (q = p ++ n ∨ q = below p n)
  | .nil, _, q, hq => by simp [Tree.entries] at hq
  | .file n r, h, q, hq => by
    rcases List.mem_cons.1 hq with rfl | hq
    · exact ⟨n, h.1, Or.inl rfl⟩
    · exact entries_mem h.2 q hq
  | .dir n s r, h, q, hq => by
    rcases List.mem_cons.1 hq with rfl | hq
    · exact ⟨n, h.1, Or.inr rfl⟩
    · exact entries_mem h.2.2.2 q hq
  | .closed n r, h, q, hq => by
    rcases List.mem_cons.1 hq with rfl | hq
    · exact ⟨n, h.1, Or.inr rfl⟩
    · exact entries_mem h.2.2 q hq

theorem last_file {p n : List Byte} (h : ValidName n) : (p ++ n).getLast? ≠ some (ch '/') := by
  intro hl
  rcases List.eq_nil_or_concat n with rfl | ⟨m, c, rfl⟩
  · exact h.1 rfl
  · rw [List.concat_eq_append, ← List.append_assoc, List.getLast?_append] at hl
    simp only [List.getLast?_singleton, Option.some_or, Option.some.injEq] at hl
    exact h.2.2.2.1 (by simp [hl])

theorem last_below {p n : List Byte} : (below p n).getLast? = some (ch '/') := by simp [below]

/-- Two texts without slash behind the last slash but one are equal. -/
theorem slash_cancel {a b x y : List Byte} (hx : ch '/' ∉ x) (hy : ch '/' ∉ y) (h : a ++ ch '/' :: x = b ++ ch '/' :: y) : x = y := by
  have h1 : ∀ (a x : List Byte), ch '/' ∉ x → (a ++ ch '/' :: x).reverse.takeWhile (fun c => c ≠ ch '/') = x.reverse := by
    intro a x hx
    simp only [List.reverse_append, List.reverse_cons, List.append_assoc, List.singleton_append]
    rw [List.takeWhile_append_of_pos]
    · simp
    · intro c hc
      simp only [decide_eq_true_eq]
      rintro rfl
      exact hx (by simpa using hc)
  have := h1 a x hx
  rw [h, h1 b y hy] at this
  simpa using this.symm

/-- The names that have a meaning. -/
theorem not_dropped8 {p n q : List Byte} (hp : p.getLast? = some (ch '/')) (h : ValidName n) (hq : q = p ++ n ∨ q = below p n) : ¬ Dropped 8 q := by
  obtain ⟨p', rfl⟩ : ∃ p', p = p' ++ [ch '/'] := by
    obtain ⟨p', h⟩ := List.getLast?_eq_some_iff.1 hp
    exact ⟨p', h⟩
  have key : ∀ m, (m = bytes! "." ∨ m = bytes! "..") → ¬ (ch '/' :: m ++ [ch '/']) <:+ q := by
    rintro m hm ⟨x, hx⟩
    rcases hq with rfl | rfl
    · apply last_file (p := p' ++ [ch '/']) h
      rw [← hx, ← List.append_assoc, List.getLast?_append]; rfl
    · have h2 : x ++ ch '/' :: m = p' ++ ch '/' :: n := by
        simp only [below] at hx
        have h3 : (x ++ ch '/' :: m) ++ [ch '/'] = (p' ++ ch '/' :: n) ++ [ch '/'] := by simpa using hx
        exact List.append_cancel_right h3
      have h4 := slash_cancel (by rcases hm with rfl | rfl <;> decide) h.2.2.2.1 h2
      rcases hm with rfl | rfl
      · exact h.2.2.2.2.1 h4.symm
      · exact h.2.2.2.2.2 h4.symm
  rintro ⟨_, ⟨_, hd⟩ | ⟨_, hd⟩⟩
  · exact key (bytes! ".") (Or.inl rfl) hd
  · exact key (bytes! "..") (Or.inr rfl) hd

theorem not_dropped12 {n m : List Byte} (h : ValidName n) (hm : m = n ∨ m = n ++ [ch '/']) : ¬ Dropped 12 m := by
  have key : ∀ k, (k = bytes! "." ∨ k = bytes! "..") → m ≠ k ++ [ch '/'] := by
    rintro k hk rfl
    rcases hm with hm | hm
    · exact h.2.2.2.1 (by rw [← hm]; simp)
    · have := List.append_cancel_right hm
      rcases hk with rfl | rfl
      · exact h.2.2.2.2.1 this.symm
      · exact h.2.2.2.2.2 this.symm
  rintro ⟨_, ⟨_, hd⟩ | ⟨_, hd⟩⟩
  · exact key (bytes! ".") (Or.inl rfl) hd
  · exact key (bytes! "..") (Or.inr rfl) hd

/-- What glob shows, with the paths. -/
theorem shows8 {e : Env} {p : List Byte} {t : Tree} {ps : List (List Byte)} (hp : p.getLast? = some (ch '/')) (hm : t.Mounted e p)
    (h : ps.filter (fun q => q ≠ p ++ bytes! "./" ∧ q ≠ p ++ bytes! "../") = t.entries p) : Entries 8 ps (t.entries p) := by
  have := filter_entries (flags := 8) (f := id) (fun q => q ≠ p ++ bytes! "./" ∧ q ≠ p ++ bytes! "../") ps ?_ ?_
  · rw [List.map_id, h] at this
    exact this
  · intro q hq hk
    have : q ∈ t.entries p := by rw [← h]; exact List.mem_filter.2 ⟨hq, by simpa using hk⟩
    obtain ⟨n, hn, hq⟩ := entries_mem hm q this
    refine ⟨?_, rfl, not_dropped8 hp hn hq⟩
    rcases hq with rfl | rfl
    · simp [hn.1]
    · simp [below]
  · intro q hq hk
    obtain ⟨p', rfl⟩ := List.getLast?_eq_some_iff.1 hp
    by_cases h1 : q = p' ++ [ch '/'] ++ bytes! "./"
    · refine ⟨by simp [h1], q, rfl, rfl, Or.inl ⟨rfl, ⟨p', ?_⟩⟩⟩
      rw [h1, List.append_assoc]; rfl
    · by_cases h2 : q = p' ++ [ch '/'] ++ bytes! "../"
      · refine ⟨by simp [h2], q, rfl, rfl, Or.inr ⟨rfl, ⟨p', ?_⟩⟩⟩
        rw [h2, List.append_assoc]; rfl
      · exact absurd ⟨h1, h2⟩ hk

/-- The names of the entries. -/
def names : Tree → List (List Byte)
  | .nil => []
  | .file n r => n :: names r
  | .dir n _ r => (n ++ [ch '/']) :: names r
  | .closed n r => (n ++ [ch '/']) :: names r

theorem names_entries (p : List Byte) : ∀ t : Tree, (t.entries p).map (·.drop p.length) = names t
  | .nil => rfl
  | .file n r => by simp [Tree.entries, names, names_entries p r]
  | .dir n s r => by simp [Tree.entries, names, names_entries p r, below]
  | .closed n r => by simp [Tree.entries, names, names_entries p r, below]

theorem shows12 {e : Env} {p : List Byte} {t : Tree} {ps : List (List Byte)} (hp : p.getLast? = some (ch '/')) (hm : t.Mounted e p)
    (h : ps.filter (fun q => q ≠ p ++ bytes! "./" ∧ q ≠ p ++ bytes! "../") = t.entries p) : Entries 12 ps (names t) := by
  obtain ⟨p', rfl⟩ := List.getLast?_eq_some_iff.1 hp
  have := filter_entries (flags := 12) (f := (·.drop (p' ++ [ch '/']).length)) (fun q => q ≠ p' ++ [ch '/'] ++ bytes! "./" ∧ q ≠ p' ++ [ch '/'] ++ bytes! "../") ps ?_ ?_
  · rw [h, names_entries] at this
    exact this
  · intro q hq hk
    have : q ∈ t.entries (p' ++ [ch '/']) := by rw [← h]; exact List.mem_filter.2 ⟨hq, by simpa using hk⟩
    obtain ⟨n, hn, hq⟩ := entries_mem hm q this
    rcases hq with rfl | rfl
    · rw [List.drop_left]
      exact ⟨by simp, ⟨p', n, [], by simp, by simp, hn.2.2.2.1, Or.inl ⟨rfl, hn.1⟩⟩, not_dropped12 hn (Or.inl rfl)⟩
    · rw [below, List.append_assoc, List.drop_left]
      exact ⟨by simp, ⟨p', n, [ch '/'], by simp, by simp, hn.2.2.2.1, Or.inr rfl⟩, not_dropped12 hn (Or.inr rfl)⟩
  · intro q hq hk
    by_cases h1 : q = p' ++ [ch '/'] ++ bytes! "./"
    · exact ⟨by simp [h1], bytes! "./", ⟨p', bytes! ".", [ch '/'], by rw [h1, List.append_assoc]; rfl, rfl, by decide, Or.inr rfl⟩, rfl, Or.inl ⟨rfl, rfl⟩⟩
    · by_cases h2 : q = p' ++ [ch '/'] ++ bytes! "../"
      · exact ⟨by simp [h2], bytes! "../", ⟨p', bytes! "..", [ch '/'], by rw [h2, List.append_assoc]; rfl, rfl, by decide, Or.inr rfl⟩, rfl, Or.inr ⟨rfl, rfl⟩⟩
      · exact absurd ⟨h1, h2⟩ hk

theorem last_ne {p : List Byte} (h : p.getLast? = some (ch '/')) : p ≠ [] := by
  rintro rfl; exact absurd h (by simp)

/-- A search that succeeds. -/
theorem search_good {e : Env} (hb : e.buf.length = 4096) {flags : BitVec 32} (hf : flags.getLsbD 3 = true) {p : List Byte} {ps ns : List (List Byte)} {dir : Option SP}
    (hs : Props.Names dir p) (hz : 0 ∉ p) (hl : (escape p).length + 3 < 4096) (hps : ∀ q ∈ ps, 0 ∉ q)
    (hg : e.glob (pattern p (bytes! "*")) true = .ok (ps.map (· ++ [0]))) (he : Entries flags ps ns) :
    ∃ fs, search e dir flags = .ok (0, fs) ∧ HoldsAll fs ns := by
  obtain ⟨fs, f1, f2⟩ := Props.filelist_search_correct dir p hs
    ⟨bytes! "*" ++ [0], 1⟩ (bytes! "*") ⟨rfl, [0], rfl⟩ (by decide) hz (by decide) flags e.buf hb (by simpa using hl) e.glob ps ns hps (by rw [hf]; exact hg) he
  have : dots flags = [] := by unfold dots; rw [if_pos hf]
  rw [this, List.nil_append] at f2
  exact ⟨fs, f1, f2⟩

/-- A search that fails. -/
theorem search_bad {e : Env} (hb : e.buf.length = 4096) {flags : BitVec 32} (hf : flags.getLsbD 3 = true) {p : List Byte} {dir : Option SP}
    (hs : Props.Names dir p) (hz : 0 ∉ p) (hl : p.length < 2 ^ 63) (h : Fails e p) : ∃ r, r ≠ 0 ∧ search e dir flags = .ok (r, []) := by
  rcases h with h | ⟨r, h1, h2⟩
  · refine ⟨-1, by decide, ?_⟩
    exact Props.filelist_search_too_long dir p hs ⟨bytes! "*" ++ [0], 1⟩ (bytes! "*") ⟨rfl, [0], rfl⟩ (by decide)
      (by simp; omega) flags e.buf hb (by simpa using h) e.glob true _
  · by_cases hfit : (escape p).length + 3 < 4096
    · refine ⟨r, h1, ?_⟩
      exact Props.filelist_search_error dir p hs ⟨bytes! "*" ++ [0], 1⟩ (bytes! "*") ⟨rfl, [0], rfl⟩ (by decide)
        hz (by decide) flags e.buf hb (by simpa using hfit) e.glob true _ r (by rw [hf]; exact h2)
    · refine ⟨-1, by decide, ?_⟩
      exact Props.filelist_search_too_long dir p hs ⟨bytes! "*" ++ [0], 1⟩ (bytes! "*") ⟨rfl, [0], rfl⟩ (by decide)
        (by simp; omega) flags e.buf hb (by simp; omega) e.glob true _

theorem below_clean {p n : List Byte} (hz : 0 ∉ p) (hn : ValidName n) : 0 ∉ below p n := by
  unfold below
  simp only [List.mem_append, List.mem_singleton, not_or]
  exact ⟨⟨hz, hn.2.2.1⟩, by decide⟩

theorem below_length {p n : List Byte} (hn : ValidName n) : p.length + 2 ≤ (below p n).length ∧ (below p n).length ≤ p.length + 256 := by
  have := List.length_pos_iff.2 hn.1
  have := hn.2.1
  simp only [below, List.length_append, List.length_singleton]
  omega

/-! ### The first program -/

theorem doDir1_spec {e : Env} (hb : e.buf.length = 4096) : ∀ (n : Nat) (p : List Byte) (t : Tree) (dir : Option SP) (first : List Byte), 4097 ≤ p.length + n →
    p.getLast? = some (ch '/') → 0 ∉ p → Shows e p t → t.Mounted e p → Props.Names dir p → line dir = .ok first →
    doDir1 e n dir = .ok (first ++ text (t.listed p)) := by
  intro n
  induction n with
  | zero =>
    intro p t dir first hn _ _ hS _ _ _
    have := Filelist.escape_length_le p
    have := hS.1
    omega
  | succ n ih =>
    intro p t dir first hn hp hz hS hm hs hfirst
    obtain ⟨hl, ps, h1, h2, h3⟩ := hS
    obtain ⟨fs, f1, f2⟩ := search_good hb (flags := 8) rfl hs hz hl h1 h2 (shows8 hp hm h3)
    have hpl : p.length < 4093 := by
      have := Filelist.escape_length_le p
      omega
    have inner : ∀ (r : Tree) (fs : List SP), r.Mounted e p → HoldsAll fs (r.entries p) → files1 (doDir1 e n) fs = .ok (text (r.listed p)) := by
      intro r
      induction r with
      | nil => intro fs _ hf; cases hf; rfl
      | file m r ihr =>
        intro fs hm hf
        cases hf with
        | cons hf1 hf2 =>
          unfold files1
          rw [isdir_spec hf1, decide_eq_false (last_file hm.1), line_spec hf1, ihr _ hm.2 hf2]
          simp [ok_bind, pure_eq_ok, Tree.listed]
      | dir m s r _ ihr =>
        intro fs hm hf
        cases hf with
        | cons hf1 hf2 =>
          have := below_length (p := p) hm.1
          unfold files1
          rw [isdir_spec hf1, decide_eq_true last_below, ihr _ hm.2.2.2 hf2]
          simp only [ok_bind, if_true]
          rw [ih (below p m) s _ _ (by omega) last_below (below_clean hz hm.1) hm.2.1 hm.2.2.1 (Or.inl ⟨_, rfl, hf1, last_ne last_below⟩) (line_spec hf1)]
          simp [ok_bind, pure_eq_ok, Tree.listed]
      | closed m r ihr =>
        intro fs hm hf
        cases hf with
        | cons hf1 hf2 =>
          have := below_length (p := p) hm.1
          obtain ⟨v, v1, v2⟩ := search_bad hb (flags := 8) rfl (Or.inl ⟨_, rfl, hf1, last_ne last_below⟩) (below_clean hz hm.1) (by omega) hm.2.1
          unfold files1
          rw [isdir_spec hf1, decide_eq_true last_below, ihr _ hm.2.2 hf2]
          simp only [ok_bind, if_true]
          obtain ⟨n, rfl⟩ : ∃ k, n = k + 1 := ⟨n - 1, by omega⟩
          unfold doDir1
          rw [v2]
          simp [ok_bind, pure_eq_ok, Tree.listed, v1]
    unfold doDir1
    rw [f1]
    simp only [ok_bind, ne_eq, not_true, if_false]
    rw [hfirst, inner t fs hm f2]
    simp [ok_bind, pure_eq_ok]

/-! ### The second program -/

theorem cat_spec (junk : Nat → Byte) {x y : SP} {a b : List Byte} (hx : Holds x a) (hy : Holds y b) (h : a.length + b.length < 2 ^ 63) :
    cat junk x y = .ok ⟨a ++ b ++ [0], (a ++ b).length⟩ := by
  unfold cat
  rw [Props.stringptr_concat_correct (some junk) x [y] a [b] hx (.cons hy .nil) (by simp; omega)]
  simp [ok_bind, pure_eq_ok]

theorem holds_cat (a : List Byte) : Holds ⟨a ++ [0], a.length⟩ a := ⟨rfl, List.prefix_append ..⟩

theorem doDir2_spec {e : Env} (hb : e.buf.length = 4096) (junk : Nat → Byte) {srcdir : SP} {d : List Byte} (hd : Holds srcdir d) :
    ∀ (n : Nat) (u p : List Byte) (t : Tree) (subd : SP), Holds subd u → d ++ u = p → 4097 ≤ p.length + n →
    p.getLast? = some (ch '/') → 0 ∉ p → Shows e p t → t.Mounted e p → doDir2 e junk srcdir n subd = .ok (text (p :: t.listed p)) := by
  intro n
  induction n with
  | zero =>
    intro u p t s _ _ hn _ _ hS _
    have := Filelist.escape_length_le p
    have := hS.1
    omega
  | succ n ih =>
    intro u p t subd hu hup hn hp hz hS hm
    obtain ⟨hl, ps, h1, h2, h3⟩ := hS
    have hpl : p.length < 4093 := by
      have := Filelist.escape_length_le p
      omega
    have hdu : d.length + u.length < 4093 := by rw [← List.length_append, hup]; exact hpl
    have hc : cat junk srcdir subd = .ok ⟨p ++ [0], p.length⟩ := by
      rw [cat_spec junk hd hu (by omega), hup]
    obtain ⟨fs, f1, f2⟩ := search_good hb (flags := 12) rfl (Or.inl ⟨_, rfl, holds_cat p, last_ne hp⟩) hz hl h1 h2 (shows12 hp hm h3)
    have inner : ∀ (r : Tree) (fs : List SP), r.Mounted e p → HoldsAll fs (names r) →
        files2 junk (doDir2 e junk srcdir n) subd ⟨p ++ [0], p.length⟩ fs = .ok (text (r.listed p)) := by
      intro r
      induction r with
      | nil => intro fs _ hf; cases hf; rfl
      | file m r ihr =>
        intro fs hm hf
        cases hf with
        | cons hf1 hf2 =>
          have hml := hm.1.2.1
          unfold files2
          rw [isdir_spec hf1, decide_eq_false (by simpa using last_file (p := []) hm.1), ihr _ hm.2 hf2, cat_spec junk (holds_cat p) hf1 (by omega)]
          simp only [ok_bind, Bool.false_eq_true, if_false]
          rw [line_spec (holds_cat (p ++ m))]
          simp [ok_bind, pure_eq_ok, Tree.listed]
      | dir m s r _ ihr =>
        intro fs hm hf
        cases hf with
        | cons hf1 hf2 =>
          have := below_length (p := p) hm.1
          have hml := hm.1.2.1
          unfold files2
          rw [isdir_spec hf1, decide_eq_true (by simp), ihr _ hm.2.2.2 hf2, cat_spec junk (holds_cat p) hf1 (by simp; omega),
            cat_spec junk hu hf1 (by simp; omega)]
          simp only [ok_bind, if_true]
          rw [ih (u ++ (m ++ [ch '/'])) (below p m) s _ (holds_cat _) (by rw [← hup]; simp [below]) (by omega) last_below (below_clean hz hm.1)
            hm.2.1 hm.2.2.1]
          simp [ok_bind, pure_eq_ok, Tree.listed]
      | closed m r ihr =>
        intro fs hm hf
        cases hf with
        | cons hf1 hf2 =>
          have := below_length (p := p) hm.1
          have hml := hm.1.2.1
          obtain ⟨v, v1, v2⟩ := search_bad hb (flags := 12) rfl (Or.inl ⟨_, rfl, holds_cat (below p m), last_ne last_below⟩)
            (below_clean hz hm.1) (by omega) hm.2.1
          unfold files2
          rw [isdir_spec hf1, decide_eq_true (by simp), ihr _ hm.2.2 hf2, cat_spec junk (holds_cat p) hf1 (by simp; omega),
            cat_spec junk hu hf1 (by simp; omega)]
          simp only [ok_bind, if_true]
          obtain ⟨n, rfl⟩ : ∃ k, n = k + 1 := ⟨n - 1, by omega⟩
          unfold doDir2
          have e1 : d ++ (u ++ (m ++ [ch '/'])) = below p m := by rw [← hup]; simp [below]
          rw [cat_spec junk hd (holds_cat _) (by simp; omega), e1]
          simp only [ok_bind]
          rw [v2]
          simp [ok_bind, pure_eq_ok, Tree.listed, v1]
    unfold doDir2
    rw [hc]
    simp only [ok_bind]
    rw [f1]
    simp only [ok_bind, ne_eq, not_true, if_false]
    rw [line_spec (holds_cat p), inner t fs hm f2]
    simp [ok_bind, pure_eq_ok]

/-! ### The main functions -/

theorem start_last (d : List Byte) : (start d).getLast? = some (ch '/') := by
  unfold start; split
  · assumption
  · simp

theorem start_clean {d : List Byte} (h : 0 ∉ d) : 0 ∉ start d := by
  unfold start; split
  · exact h
  · simp only [List.mem_append, List.mem_singleton, not_or]; exact ⟨h, by decide⟩

theorem main1_eq (e : Env) (f : Nat → Byte) {d : List Byte} (hz : 0 ∉ d) (hl : d.length < 2 ^ 62) :
    main1 e (some f) [d] = (do pure (← doDir1 e 4097 (some ⟨start d ++ [0], (start d).length⟩), 0)) := by
  have h1 : Stringptr.fromchar (some (d ++ [0])) = .ok ⟨d ++ [0], d.length⟩ := by
    unfold Stringptr.fromchar
    simp only
    rw [Hex.strlen_cstr d [] hz]; rfl
  unfold main1
  simp only
  rw [h1]
  simp only [ok_bind]
  rw [isdir_spec (holds_cat d)]
  simp only [ok_bind]
  by_cases h : d.getLast? = some (ch '/')
  · rw [decide_eq_true h, if_pos rfl, start, if_pos h]; rfl
  · rw [decide_eq_false h, if_neg (by simp), start, if_neg h,
      Props.stringptr_concat_correct (some f) _ [⟨bytes! "/" ++ [0], 1⟩] d [bytes! "/"] (holds_cat d) (.cons ⟨rfl, [0], rfl⟩ .nil) (by simp; omega)]
    rfl

theorem main1_none (e : Env) {d : List Byte} (hz : 0 ∉ d) (h : d.getLast? ≠ some (ch '/')) :
    main1 e none [d] = (do pure (← doDir1 e 4097 none, 0)) := by
  have h1 : Stringptr.fromchar (some (d ++ [0])) = .ok ⟨d ++ [0], d.length⟩ := by
    unfold Stringptr.fromchar
    simp only
    rw [Hex.strlen_cstr d [] hz]; rfl
  unfold main1
  simp only
  rw [h1]
  simp only [ok_bind]
  rw [isdir_spec (holds_cat d), decide_eq_false h]
  rfl

theorem main2_eq (e : Env) (junk : Nat → Byte) {d : List Byte} (hz : 0 ∉ d) :
    ∃ u subd, Holds subd u ∧ d ++ u = start d ∧ u.length ≤ 1 ∧
      main2 e junk [d] = (do pure (← doDir2 e junk ⟨d ++ [0], d.length⟩ 4097 subd, 0)) := by
  have h1 : Stringptr.fromchar (some (d ++ [0])) = .ok ⟨d ++ [0], d.length⟩ := by
    unfold Stringptr.fromchar
    simp only
    rw [Hex.strlen_cstr d [] hz]; rfl
  unfold main2
  simp only
  rw [h1]
  simp only [ok_bind]
  rw [isdir_spec (holds_cat d)]
  simp only [ok_bind]
  by_cases h : d.getLast? = some (ch '/')
  · refine ⟨[], ⟨[0], 0⟩, holds_cat [], by simp [start, h], by simp, ?_⟩
    rw [decide_eq_true h, if_pos rfl]
  · refine ⟨bytes! "/", ⟨bytes! "/" ++ [0], 1⟩, holds_cat (bytes! "/"), by rw [start, if_neg h]; rfl, by simp, ?_⟩
    rw [decide_eq_false h, if_neg (by simp)]

/-! ### Any file system -/

theorem holdsAll_mem {l : List SP} {ss : List (List Byte)} (h : HoldsAll l ss) : ∀ s ∈ l, ∃ x ∈ ss, Holds s x := by
  induction h with
  | nil => simp
  | cons h1 _ ih =>
    intro s hs
    rcases List.mem_cons.1 hs with rfl | hs
    · exact ⟨_, List.mem_cons_self, h1⟩
    · obtain ⟨x, x1, x2⟩ := ih s hs
      exact ⟨x, List.mem_cons_of_mem _ x1, x2⟩

theorem entries_name {flags : BitVec 32} {ps ns : List (List Byte)} (h : Entries flags ps ns) : ∀ n ∈ ns, ∃ p ∈ ps, Name flags p n := by
  induction h with
  | nil => simp
  | empty _ ih => intro n hn; obtain ⟨p, h1, h2⟩ := ih n hn; exact ⟨p, List.mem_cons_of_mem _ h1, h2⟩
  | keep _ h2 _ _ ih =>
    intro n hn
    rcases List.mem_cons.1 hn with rfl | hn
    · exact ⟨_, List.mem_cons_self, h2⟩
    · obtain ⟨p, h1, h2⟩ := ih n hn; exact ⟨p, List.mem_cons_of_mem _ h1, h2⟩
  | drop _ _ _ _ ih => intro n hn; obtain ⟨p, h1, h2⟩ := ih n hn; exact ⟨p, List.mem_cons_of_mem _ h1, h2⟩

/-- Every search ends with a list or an error. -/
theorem search_total {e : Env} (he : Env.Ok e) {flags : BitVec 32} (hf : flags.getLsbD 3 = true) {dir : Option SP} {p : List Byte} (hs : Props.Names dir p)
    (hz : 0 ∉ p) (hl : p.length < 2 ^ 63) :
    (∃ r, r ≠ 0 ∧ search e dir flags = .ok (r, [])) ∨
    (p.length < 4093 ∧ ∃ ts ns fs, search e dir flags = .ok (0, fs) ∧ HoldsAll fs ns ∧ Entries flags ts ns ∧
      e.glob (pattern p (bytes! "*")) true = .ok (ts.map (· ++ [0])) ∧ ∀ t ∈ ts, 0 ∉ t ∧ t.length < 2 ^ 62) := by
  by_cases hfit : (escape p).length + 3 < 4096
  · cases hg : e.glob (pattern p (bytes! "*")) true with
    | error r => exact Or.inl (search_bad he.buf hf hs hz hl (Or.inr ⟨r, he.errors _ _ _ hg, hg⟩))
    | ok ps =>
      obtain ⟨ts, rfl, hts⟩ := he.strings _ _ _ hg
      rcases Props.filelist_paths flags ts with ⟨ns, hns⟩ | hbad
      · right
        obtain ⟨fs, f1, f2⟩ := search_good he.buf hf hs hz hfit (fun t ht => (hts t ht).1) hg hns
        have := Filelist.escape_length_le p
        exact ⟨by omega, ts, ns, fs, f1, f2, hns, rfl, hts⟩
      · left
        refine ⟨-1, by decide, ?_⟩
        exact Props.filelist_search_nameless dir p hs ⟨bytes! "*" ++ [0], 1⟩ (bytes! "*") ⟨rfl, [0], rfl⟩ (by decide) hz (by decide) flags e.buf he.buf
          (by simpa using hfit) e.glob ts (fun t ht => (hts t ht).1) (by rw [hf]; exact hg) hbad true _
  · exact Or.inl (search_bad he.buf hf hs hz hl (Or.inl (by omega)))

theorem slashes_le (p : List Byte) : slashes p ≤ p.length := List.count_le_length

theorem doDir1_total {e : Env} (he : Env.Ok e) : ∀ (n : Nat) (p : List Byte) (dir : Option SP) (first : List Byte), 1 ≤ n → 4097 ≤ slashes p + n → 0 ∉ p →
    p.length < 2 ^ 63 → Props.Names dir p → line dir = .ok first → ∃ o, doDir1 e n dir = .ok o := by
  intro n
  induction n with
  | zero => intro p dir first h; omega
  | succ n ih =>
    intro p dir first _ hn hz hl hs hfirst
    unfold doDir1
    rcases search_total he (flags := 8) rfl hs hz hl with ⟨r, r0, r1⟩ | ⟨hpl, ts, ns, fs, f1, f2, f3, f4, f5⟩
    · rw [r1]
      simp only [ok_bind]
      rw [if_pos r0]
      exact ⟨_, rfl⟩
    · have := slashes_le p
      have inner : ∀ fs : List SP, (∀ s ∈ fs, ∃ x ∈ ts, Holds s x) → ∃ o, files1 (doDir1 e n) fs = .ok o := by
        intro fs
        induction fs with
        | nil => intro _; exact ⟨_, rfl⟩
        | cons s fs ihf =>
          intro h
          obtain ⟨o, ho⟩ := ihf (fun s hs => h s (List.mem_cons_of_mem _ hs))
          obtain ⟨x, x1, x2⟩ := h s List.mem_cons_self
          unfold files1
          rw [isdir_spec x2, ho, line_spec x2]
          by_cases hx : x.getLast? = some (ch '/')
          · have hd := he.deeper p true _ x f4 (List.mem_map.2 ⟨x, x1, rfl⟩) hx
            have := (f5 x x1).2
            obtain ⟨o', ho'⟩ := ih x (some s) _ (by omega) (by omega) (f5 x x1).1 (by omega) (Or.inl ⟨_, rfl, x2, last_ne hx⟩) (line_spec x2)
            rw [decide_eq_true hx, ho']
            exact ⟨_, rfl⟩
          · rw [decide_eq_false hx]
            exact ⟨_, rfl⟩
      obtain ⟨o, ho⟩ := inner fs (fun s hs => by
        obtain ⟨x, x1, x2⟩ := holdsAll_mem f2 s hs
        obtain ⟨q, q1, q2⟩ := entries_name f3 x x1
        have q2 : x = q := q2
        exact ⟨x, q2 ▸ q1, x2⟩)
      rw [f1]
      simp only [ok_bind, ne_eq, not_true, if_false]
      rw [hfirst, ho]
      exact ⟨_, rfl⟩

theorem doDir2_total {e : Env} (he : Env.Ok e) (junk : Nat → Byte) {srcdir : SP} {d : List Byte} (hd : Holds srcdir d) (hdz : 0 ∉ d) (hdl : d.length < 2 ^ 61) :
    ∀ (n : Nat) (u : List Byte) (subd : SP), Holds subd u → 1 ≤ n → 4097 ≤ (d ++ u).length + n → 0 ∉ u → u.length < 2 ^ 62 + 4096 → d ++ u ≠ [] →
    ∃ o, doDir2 e junk srcdir n subd = .ok o := by
  intro n
  induction n with
  | zero => intro u subd _ h; omega
  | succ n ih =>
    intro u subd hu _ hn hz hl hne
    unfold doDir2
    rw [cat_spec junk hd hu (by omega)]
    simp only [ok_bind]
    have hlen : (d ++ u).length = d.length + u.length := List.length_append
    rcases search_total he (flags := 12) rfl (Or.inl ⟨_, rfl, holds_cat (d ++ u), hne⟩) (fun h => (List.mem_append.1 h).elim hdz hz) (by omega) with
      ⟨r, r0, r1⟩ | ⟨hpl, ts, ns, fs, f1, f2, f3, f4, f5⟩
    · rw [r1]
      simp only [ok_bind]
      rw [if_pos r0]
      exact ⟨_, rfl⟩
    · have inner : ∀ fs : List SP, (∀ s ∈ fs, ∃ x, (0 ∉ x ∧ x.length < 2 ^ 62) ∧ Holds s x) →
          ∃ o, files2 junk (doDir2 e junk srcdir n) subd ⟨d ++ u ++ [0], (d ++ u).length⟩ fs = .ok o := by
        intro fs
        induction fs with
        | nil => intro _; exact ⟨_, rfl⟩
        | cons s fs ihf =>
          intro h
          obtain ⟨o, ho⟩ := ihf (fun s hs => h s (List.mem_cons_of_mem _ hs))
          obtain ⟨x, x1, x2⟩ := h s List.mem_cons_self
          unfold files2
          rw [isdir_spec x2, ho, cat_spec junk (holds_cat (d ++ u)) x2 (by omega), cat_spec junk hu x2 (by omega)]
          by_cases hx : x.getLast? = some (ch '/')
          · have := List.length_pos_iff.2 (last_ne hx)
            obtain ⟨o', ho'⟩ := ih (u ++ x) ⟨u ++ x ++ [0], (u ++ x).length⟩ (holds_cat _) (by omega) (by simp; omega) (fun h => (List.mem_append.1 h).elim hz x1.1)
              (by simp; omega) (by rw [← List.append_assoc]; simp [last_ne hx])
            simp only [ok_bind]
            rw [decide_eq_true hx, if_pos rfl, ho']
            exact ⟨_, rfl⟩
          · simp only [ok_bind]
            rw [decide_eq_false hx, line_spec (holds_cat _)]
            exact ⟨_, rfl⟩
      obtain ⟨o, ho⟩ := inner fs (fun s hs => by
        obtain ⟨x, x1, x2⟩ := holdsAll_mem f2 s hs
        obtain ⟨q, q1, pre, core, tail, q2, q3, _⟩ := entries_name f3 x x1
        refine ⟨x, ⟨?_, ?_⟩, x2⟩
        · intro h0
          apply (f5 q q1).1
          rw [q2]
          rw [q3] at h0
          simp only [List.mem_append, List.mem_cons] at h0 ⊢
          exact Or.inr (Or.inr h0)
        · have := (f5 q q1).2
          rw [q2] at this
          rw [q3]
          simp only [List.length_append, List.length_cons] at this ⊢
          omega)
      rw [f1]
      simp only [ok_bind, ne_eq, not_true, if_false]
      rw [line_spec (holds_cat _), ho]
      exact ⟨_, rfl⟩

end Ulz.Listfiles
