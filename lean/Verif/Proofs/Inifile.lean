import Verif.Model.Inifile
import Verif.Spec.Inifile
import Verif.Props.Iniparser
import Verif.Props.Stringptrlist
/-! Lemmas about looking up values in the text of an INI file. -/
namespace Ulz.Inifile
open Ulz.Stringptr (SP Piece splitc)
open Ulz.Stringptr.Spec (Holds HoldsAll Slices)
open Ulz.Iniparser
open Ulz.Iniparser.Spec (Header Bracket)
open Ulz.Inifile.Spec

/-! ### From slices to entries -/

theorem entries_holds {buf : List Byte} {ps : List Piece} {cs : List (List Byte)} (h : Slices buf ps cs) :
    HoldsAll (entries buf ps) cs ∧
    ∀ (i : Nat) (p : SP) (c : List Byte), (entries buf ps)[i]? = some p → cs[i]? = some c → c ++ [0] <+: p.buf := by
  induction h with
  | nil => exact ⟨.nil, by simp [entries]⟩
  | @cons p c ps cs h1 h2 _ ih =>
    have hp : c ++ [0] <+: buf.drop p.1 := by rw [← h2]; exact List.take_prefix _ _
    refine ⟨.cons ⟨h1, (List.prefix_append c [0]).trans hp⟩ ih.1, ?_⟩
    intro i q d hq hd
    cases i with
    | zero => cases hq; cases hd; exact hp
    | succ i => exact ih.2 i q d hq hd

theorem valLoop_line {l : List SP} {key : SP} {maxline : Nat} : ∀ fuel i j r,
    valLoop l key maxline fuel i = .ok (some j, some r) →
    ∃ line, l[j]? = some line ∧ r = ⟨line.buf.drop (key.size + 1), line.size - (key.size + 1)⟩ := by
  intro fuel
  induction fuel with
  | zero => intro i j r h; cases h
  | succ fuel ih =>
    intro i j r h
    rw [valLoop] at h
    by_cases hi : i < maxline
    · rw [if_pos hi] at h
      cases hl : l[i]? with
      | none => rw [hl] at h; exact ih _ _ _ h
      | some line =>
        rw [hl] at h
        simp only at h
        cases hk : isKey line key with
        | error e => rw [hk] at h; cases h
        | ok b =>
          rw [hk, ok_bind] at h
          cases b with
          | true =>
            rw [if_pos rfl] at h
            cases h
            exact ⟨line, hl, rfl⟩
          | false =>
            rw [if_neg (by simp)] at h
            exact ih _ _ _ h
    · rw [if_neg hi] at h
      cases h

/-! ### Lines -/

theorem given_iff {key line v : List Byte} : given key line = some v ↔ line = key ++ ch '=' :: v := by
  unfold given
  constructor
  · intro h
    split at h
    · rename_i hp
      obtain ⟨t, rfl⟩ := hp
      cases h
      simp
    · cases h
  · rintro rfl
    rw [if_pos ⟨v, by simp⟩]
    simp

theorem findSome_first {key : List Byte} {d : List (List Byte)} {j : Nat} {v : List Byte}
    (h : d[j]? = some (key ++ ch '=' :: v)) (hf : ∀ i < j, ∀ w, d[i]? ≠ some (key ++ ch '=' :: w)) :
    d.findSome? (given key) = some v := by
  induction d generalizing j with
  | nil => simp at h
  | cons x d ih =>
    rw [List.findSome?_cons]
    cases hx : given key x with
    | some w =>
      have hw := given_iff.1 hx
      cases j with
      | zero =>
        simp only [List.getElem?_cons_zero, Option.some.injEq] at h
        rw [hw] at h
        have := List.append_cancel_left h
        simp only [List.cons.injEq, true_and] at this
        rw [this]
      | succ j => exact absurd (by rw [hw]; rfl) (hf 0 (by omega) w)
    | none =>
      cases j with
      | zero =>
        simp only [List.getElem?_cons_zero, Option.some.injEq] at h
        rw [given_iff.2 h] at hx
        cases hx
      | succ j => exact ih (by simpa using h) fun i hi w => by simpa using hf (i + 1) (by omega) w

theorem findSome_none {key : List Byte} {d : List (List Byte)}
    (hf : ∀ (i : Nat) (w : List Byte), d[i]? ≠ some (key ++ ch '=' :: w)) : d.findSome? (given key) = none := by
  rw [List.findSome?_eq_none_iff]
  intro x hx
  obtain ⟨i, hi, rfl⟩ := List.getElem_of_mem hx
  cases hg : given key d[i] with
  | none => rfl
  | some v => exact absurd (by rw [List.getElem?_eq_getElem hi, given_iff.1 hg]) (hf i v)

/-- A file has no header of the section, or a first one. -/
theorem first_header (sec : List Byte) (ls : List (List Byte)) :
    ((∀ i line, 0 ≤ i → ls[i]? = some line → ¬Header sec line) ∧ ls.dropWhile (fun l => decide ¬Header sec l) = []) ∨
    (∃ a hd b, ls = a ++ hd :: b ∧ (∀ x ∈ a, ¬Header sec x) ∧ Header sec hd ∧
      ls.dropWhile (fun l => decide ¬Header sec l) = hd :: b) := by
  induction ls with
  | nil => left; simp
  | cons x ls ih =>
    by_cases hx : Header sec x
    · right
      refine ⟨[], x, ls, rfl, by simp, hx, ?_⟩
      rw [List.dropWhile_cons_of_neg (by simpa using hx)]
    · rw [List.dropWhile_cons_of_pos (by simpa using hx)]
      rcases ih with ⟨h1, h2⟩ | ⟨a, hd, b, rfl, h2, h3, h4⟩
      · left
        refine ⟨fun i line _ h => ?_, h2⟩
        cases i with
        | zero => cases h; exact hx
        | succ i => exact h1 i line (by omega) h
      · right
        refine ⟨x :: a, hd, b, rfl, ?_, h3, h4⟩
        intro y hy
        rcases List.mem_cons.1 hy with rfl | hy
        · exact hx
        · exact h2 y hy

theorem getElem?_prefix {α} {a b : List α} (h : a <+: b) {i : Nat} (hi : i < a.length) : a[i]? = b[i]? := by
  obtain ⟨t, rfl⟩ := h
  rw [List.getElem?_append_left hi]

/-- The lookup in a list of lines. -/
theorem lookup_lines {l : List SP} {ls : List (List Byte)} (hl : HoldsAll l ls)
    (hz : ∀ (i : Nat) (p : SP) (c : List Byte), l[i]? = some p → ls[i]? = some c → c ++ [0] <+: p.buf) (hlen : ls.length < 2^64)
    {sec key : SP} {s k : List Byte} (hsec : Holds sec s) (hs : s.length + 2 < 2^64) (hkey : Holds key k) :
    ∃ x, get_section l sec = .ok x ∧
      ((∃ r v, getvalue l x key = .ok (some r) ∧ lineValue ls s k = some v ∧ r.size = v.length ∧ v ++ [0] <+: r.buf) ∨
       (getvalue l x key = .ok none ∧ lineValue ls s k = none)) := by
  obtain ⟨g1, g2⟩ := Props.get_section_correct l ls hl sec s hsec hs 0
  rcases first_header s ls with ⟨h1, h2⟩ | ⟨a, hd, b, rfl, h2, h3, h4⟩
  · refine ⟨⟨0, 0⟩, g1 h1, Or.inr ⟨?_, ?_⟩⟩
    · rcases Props.getvalue_correct l ls hl key k hkey ⟨0, 0⟩ (by simp) with ⟨i, v, r, _, _, _, h, _⟩ | ⟨h, _⟩
      · simp at h
      · exact h
    · unfold lineValue; rw [h2]; rfl
  · have hsect := g2 a.length hd (by omega) (by simp) h3 (by
      intro i line _ hi h
      rw [List.getElem?_append_left hi] at h
      exact h2 _ (List.mem_of_getElem? h))
    have hdrop : (a ++ hd :: b).drop (a.length + 1) = b := by
      rw [List.drop_append]; simp
    rw [hdrop] at hsect
    refine ⟨_, hsect, ?_⟩
    have hbody : (b.takeWhile fun l => decide ¬Bracket l) <+: b := List.takeWhile_prefix _
    have hbl := hbody.length_le
    simp only [List.length_append, List.length_cons] at hlen
    have hat : ∀ i, (b.takeWhile fun l => decide ¬Bracket l)[i]? =
        if i < (b.takeWhile fun l => decide ¬Bracket l).length then (a ++ hd :: b)[a.length + 1 + i]? else none := by
      intro i
      split
      · rename_i hi
        rw [List.getElem?_append_right (by omega), show a.length + 1 + i - a.length = i + 1 by omega,
          List.getElem?_cons_succ]
        exact getElem?_prefix hbody hi
      · rw [List.getElem?_eq_none (by omega)]
    have hval : lineValue (a ++ hd :: b) s k = (b.takeWhile fun l => decide ¬Bracket l).findSome? (given k) := by
      unfold lineValue; rw [h4]; rfl
    rw [hval]
    generalize hd' : (b.takeWhile fun l => decide ¬Bracket l) = D at *
    unfold getvalue
    rcases Props.getvalue_at_correct l (a ++ hd :: b) hl key k hkey ⟨a.length + 1, D.length⟩ (by simp only; omega)
      (a.length + 1) with ⟨i, v, r, e1, e2, e3, e4, e5, e6⟩ | ⟨e1, e2⟩
    · left
      obtain ⟨line, v1, v2⟩ := valLoop_line _ _ _ _ e1
      refine ⟨r, v, by rw [e1]; rfl, ?_, e2.1, ?_⟩
      · refine findSome_first (j := i - (a.length + 1)) ?_ ?_
        · rw [hat, if_pos (by simp only at e4; omega), show a.length + 1 + (i - (a.length + 1)) = i by omega]
          exact e5
        · intro j hj w
          rw [hat]
          split
          · exact e6 _ (by omega) (by omega) w
          · simp
      · have hp := hz _ _ _ v1 e5
        obtain ⟨t, ht⟩ := hp
        refine ⟨t, ?_⟩
        rw [v2, ← ht, hkey.1]
        simp
    · right
      refine ⟨by rw [e1]; rfl, findSome_none ?_⟩
      intro i w
      rw [hat]
      split
      · exact e2 _ (by omega) (by simp only; omega) w
      · simp

/-! ### The text of a file -/

theorem entryLine_bracket {e : List Byte × List Byte} (h : e.1.head? ≠ some (ch '[')) : ¬Bracket (entryLine e) := by
  rintro ⟨t, ht⟩
  unfold entryLine at ht
  rcases hk : e.1 with _ | ⟨c, k⟩
  · rw [hk] at ht
    injection ht with h1 _
    exact absurd h1 (by decide)
  · rw [hk] at ht h
    injection ht with h1 _
    exact h (by rw [← h1]; rfl)

theorem header_bracket (n : List Byte) : Bracket (ch '[' :: n ++ [ch ']']) := ⟨n ++ [ch ']'], rfl⟩

theorem header_name {s n : List Byte} (h : ch ']' ∉ n) : Header s (ch '[' :: n ++ [ch ']']) ↔ n = s := by
  constructor
  · rintro ⟨t, ht⟩
    have ht' : s ++ ch ']' :: t = n ++ ch ']' :: [] := by
      have := ht
      simp only [List.cons_append, List.append_assoc, List.nil_append] at this
      injection this with _ this
    induction n generalizing s t with
    | nil =>
      cases s with
      | nil => rfl
      | cons c s =>
        injection ht' with _ h2
        simp at h2
    | cons c n ih =>
      cases s with
      | nil =>
        injection ht' with h1 _
        exact absurd (by rw [h1]; simp) h
      | cons d s =>
        injection ht' with h1 h2
        subst h1
        rw [ih (fun hm => h (by simp [hm])) (s := s) t (by rw [List.cons_append, List.cons_append, List.append_assoc]; exact congrArg _ h2) h2]
  · rintro rfl
    exact ⟨[], by simp⟩

theorem header_entry {s : List Byte} {e : List Byte × List Byte} (h : e.1.head? ≠ some (ch '[')) : ¬Header s (entryLine e) := by
  rintro ⟨t, ht⟩
  exact entryLine_bracket h ⟨s ++ [ch ']'] ++ t, by rw [← ht]; simp⟩

theorem given_entry {k : List Byte} (hk : ch '=' ∉ k) {e : List Byte × List Byte} (h : ch '=' ∉ e.1) :
    given k (entryLine e) = if e.1 = k then some e.2 else none := by
  split
  · rename_i he
    subst he
    exact given_iff.2 rfl
  · rename_i he
    cases hg : given k (entryLine e) with
    | none => rfl
    | some v =>
      have := given_iff.1 hg
      unfold entryLine at this
      exact absurd (split_first h hk this) he
where
  split_first {a b r t : List Byte} (ha : ch '=' ∉ a) (hb : ch '=' ∉ b) (h : a ++ ch '=' :: r = b ++ ch '=' :: t) : a = b := by
    induction a generalizing b with
    | nil =>
      cases b with
      | nil => rfl
      | cons c b => injection h with h1 _; exact absurd (by rw [h1]; simp) hb
    | cons c a ih =>
      cases b with
      | nil => injection h with h1 _; exact absurd (by rw [h1]; simp) ha
      | cons d b =>
        injection h with h1 h2
        rw [h1, ih (fun hm => ha (by simp [hm])) (fun hm => hb (by simp [hm])) h2]

theorem find_entries {k : List Byte} (hk : ch '=' ∉ k) : ∀ es : List (List Byte × List Byte), (∀ e ∈ es, ch '=' ∉ e.1) →
    (es.map entryLine).findSome? (given k) = (es.find? fun e => e.1 = k).map (·.2)
  | [], _ => rfl
  | e :: es, h => by
    rw [List.map_cons, List.findSome?_cons, List.find?_cons, given_entry hk (h e (by simp))]
    by_cases he : e.1 = k
    · simp [he]
    · simp only [he, if_false, decide_false]
      exact find_entries hk es fun e he => h e (by simp [he])

theorem takeWhile_section {es : List (List Byte × List Byte)} (h : ∀ e ∈ es, e.1.head? ≠ some (ch '[')) (rest : List (List Byte)) :
    (es.map entryLine ++ rest).takeWhile (fun l => decide ¬Bracket l) =
      es.map entryLine ++ rest.takeWhile fun l => decide ¬Bracket l := by
  induction es with
  | nil => rfl
  | cons e es ih =>
    rw [List.map_cons, List.cons_append, List.takeWhile_cons, if_pos (by simpa using entryLine_bracket (h e (by simp))),
      ih fun e he => h e (by simp [he])]
    rfl

theorem dropWhile_section {s : List Byte} {es : List (List Byte × List Byte)} (h : ∀ e ∈ es, e.1.head? ≠ some (ch '['))
    (rest : List (List Byte)) : (es.map entryLine ++ rest).dropWhile (fun l => decide ¬Header s l) =
      rest.dropWhile fun l => decide ¬Header s l := by
  induction es with
  | nil => rfl
  | cons e es ih =>
    have he := header_entry (s := s) (h e (by simp))
    have : (entryLine e :: (es.map entryLine ++ rest)).dropWhile (fun l => decide ¬Header s l) =
        (es.map entryLine ++ rest).dropWhile fun l => decide ¬Header s l :=
      List.dropWhile_cons_of_pos (by rw [decide_eq_true_eq]; exact he)
    exact this.trans (ih fun e he => h e (by simp [he]))

/-- The lines of a clean file (and the empty one behind the last line feed) give its values. -/
theorem lineValue_clean {k : List Byte} (hk : ch '=' ∉ k) (s : List Byte) : ∀ ini : Ini, Clean ini →
    lineValue (lines ini ++ [[]]) s k = value ini s k
  | [], _ => rfl
  | x :: ini, hc => by
    have hn := (hc.name x (by simp)).1
    have hke := fun e he => (hc.key x (by simp) e he).2.2
    have hkk := fun e he => (hc.key x (by simp) e he).1
    have hc' : Clean ini := ⟨fun y hy => hc.name y (by simp [hy]), fun y hy => hc.key y (by simp [hy]), fun y hy => hc.value y (by simp [hy])⟩
    have hlines : lines (x :: ini) ++ [[]] = (ch '[' :: x.1 ++ [ch ']']) :: (x.2.map entryLine ++ (lines ini ++ [[]])) := by
      unfold lines sectionLines; simp
    rw [hlines]
    unfold value
    rw [List.find?_cons]
    by_cases hx : x.1 = s
    · simp only [hx, decide_true]
      unfold lineValue
      rw [List.dropWhile_cons, if_neg (by have := (header_name (s := s) hn).2 hx; rw [hx] at this; simpa using this), List.tail_cons,
        takeWhile_section hke, List.findSome?_append, find_entries hk _ hkk]
      have : ((lines ini ++ [[]]).takeWhile fun l => decide ¬Bracket l).findSome? (given k) = none := by
        cases ini with
        | nil =>
          rw [List.findSome?_eq_none_iff]
          intro l hl
          have hl' : l = [] := by
            have := (List.takeWhile_sublist _).subset hl
            simpa [lines] using this
          subst hl'
          unfold given
          rw [if_neg (by rintro ⟨t, ht⟩; simp at ht)]
        | cons y ini =>
          have e : lines (y :: ini) ++ [[]] = (ch '[' :: y.1 ++ [ch ']']) :: (y.2.map entryLine ++ (lines ini ++ [[]])) := by
            unfold lines sectionLines; simp
          rw [e, List.takeWhile_cons, if_neg (by simpa using header_bracket y.1)]
          rfl
      rw [this]
      simp
    · simp only [hx, decide_false]
      have ih := lineValue_clean hk s ini hc'
      unfold value at ih
      rw [← ih]
      unfold lineValue
      rw [List.dropWhile_cons, if_pos (by simpa using fun h => hx ((header_name hn).1 h)), dropWhile_section hke]

theorem lines_no_lf {ini : Ini} (hc : Clean ini) : ∀ l ∈ lines ini, ch '\n' ∉ l := by
  intro l hl hm
  obtain ⟨x, hx, hl⟩ := List.mem_flatMap.1 hl
  rcases List.mem_cons.1 hl with rfl | hl
  · rcases List.mem_append.1 hm with hm | hm
    · rcases List.mem_cons.1 hm with hm | hm
      · exact absurd hm (by decide)
      · exact (hc.name x hx).2 hm
    · exact absurd (List.mem_singleton.1 hm) (by decide)
  · obtain ⟨e, he, rfl⟩ := List.mem_map.1 hl
    rcases List.mem_append.1 hm with hm | hm
    · exact (hc.key x hx e he).2.1 hm
    · rcases List.mem_cons.1 hm with hm | hm
      · exact absurd hm (by decide)
      · exact hc.value x hx e he hm

end Ulz.Inifile

namespace Ulz.Inifile
open Ulz.Iniparser.Spec (Header Bracket)
open Ulz.Inifile.Spec

/-! ### Lines that end in CR -/

theorem prefix_cr {p l : List Byte} {c d : Byte} (h : c ≠ d) : p ++ [c] <+: l ++ [d] ↔ p ++ [c] <+: l := by
  constructor
  · intro hp
    rcases List.prefix_concat_iff.1 hp with he | he
    · have := congrArg List.getLast? he
      simp at this
      exact absurd this h
    · exact he
  · intro hp; exact hp.trans (List.prefix_append _ _)

theorem header_cr {s l : List Byte} : Header s (l ++ [ch '\r']) ↔ Header s l :=
  prefix_cr (p := ch '[' :: s) (by decide)

theorem bracket_cr {l : List Byte} : Bracket (l ++ [ch '\r']) ↔ Bracket l :=
  prefix_cr (p := []) (by decide)

theorem given_cr {k l : List Byte} : given k (l ++ [ch '\r']) = (given k l).map (· ++ [ch '\r']) := by
  unfold given
  by_cases h : k ++ [ch '='] <+: l
  · rw [if_pos h, if_pos ((prefix_cr (by decide)).2 h)]
    have : k.length + 1 ≤ l.length := by simpa using h.length_le
    rw [List.drop_append_of_le_length this]
    rfl
  · rw [if_neg h, if_neg fun h' => h ((prefix_cr (by decide)).1 h')]
    rfl

theorem findSome_cr (k : List Byte) : ∀ ls : List (List Byte),
    (ls.map (· ++ [ch '\r'])).findSome? (given k) = (ls.findSome? (given k)).map (· ++ [ch '\r'])
  | [] => rfl
  | l :: ls => by
    rw [List.map_cons, List.findSome?_cons, List.findSome?_cons, given_cr]
    cases given k l with
    | some v => rfl
    | none => exact findSome_cr k ls

theorem takeWhile_cr : ∀ ls : List (List Byte), (ls.map (· ++ [ch '\r'])).takeWhile (fun l => decide ¬Bracket l) =
    (ls.takeWhile fun l => decide ¬Bracket l).map (· ++ [ch '\r'])
  | [] => rfl
  | l :: ls => by
    rw [List.map_cons, List.takeWhile_cons, List.takeWhile_cons, takeWhile_cr ls]
    by_cases h : Bracket l
    · rw [if_neg (by rw [decide_eq_true_eq]; exact fun h' => h' (bracket_cr.2 h)), if_neg (by rw [decide_eq_true_eq]; exact fun h' => h' h)]
      rfl
    · rw [if_pos (by rw [decide_eq_true_eq]; exact fun h' => h (bracket_cr.1 h')), if_pos (by rw [decide_eq_true_eq]; exact h)]
      rfl

theorem dropWhile_cr (s : List Byte) : ∀ ls : List (List Byte),
    (ls.map (· ++ [ch '\r'])).dropWhile (fun l => decide ¬Header s l) =
      (ls.dropWhile fun l => decide ¬Header s l).map (· ++ [ch '\r'])
  | [] => rfl
  | l :: ls => by
    by_cases h : Header s l
    · have e1 : (l :: ls).dropWhile (fun l => decide ¬Header s l) = l :: ls :=
        List.dropWhile_cons_of_neg (by rw [decide_eq_true_eq]; exact fun h' => h' h)
      have e2 : ((l ++ [ch '\r']) :: ls.map (· ++ [ch '\r'])).dropWhile (fun l => decide ¬Header s l) = (l ++ [ch '\r']) :: ls.map (· ++ [ch '\r']) :=
        List.dropWhile_cons_of_neg (by rw [decide_eq_true_eq]; exact fun h' => h' (header_cr.2 h))
      rw [e1]
      exact e2
    · have e1 : (l :: ls).dropWhile (fun l => decide ¬Header s l) = ls.dropWhile fun l => decide ¬Header s l :=
        List.dropWhile_cons_of_pos (by rw [decide_eq_true_eq]; exact h)
      have e2 : ((l ++ [ch '\r']) :: ls.map (· ++ [ch '\r'])).dropWhile (fun l => decide ¬Header s l) = (ls.map (· ++ [ch '\r'])).dropWhile fun l => decide ¬Header s l :=
        List.dropWhile_cons_of_pos (by rw [decide_eq_true_eq]; exact fun h' => h (header_cr.1 h'))
      rw [e1, List.map_cons, e2, dropWhile_cr s ls]

theorem lineValue_cr (s k : List Byte) (ls : List (List Byte)) :
    lineValue (ls.map (· ++ [ch '\r'])) s k = (lineValue ls s k).map (· ++ [ch '\r']) := by
  unfold lineValue
  rw [dropWhile_cr, ← List.map_tail, takeWhile_cr, findSome_cr]

/-- The empty line behind the last line feed. -/
theorem given_nil (k : List Byte) : given k [] = none := by
  unfold given
  rw [if_neg (by rintro ⟨t, ht⟩; simp at ht)]

theorem takeWhile_nil (k : List Byte) : ∀ ls : List (List Byte),
    ((ls ++ [[]]).takeWhile fun l => decide ¬Bracket l).findSome? (given k) =
      (ls.takeWhile fun l => decide ¬Bracket l).findSome? (given k)
  | [] => by
    rw [List.nil_append, List.takeWhile_cons]
    split
    · simp [List.takeWhile_nil, given_nil]
    · rfl
  | l :: ls => by
    rw [List.cons_append, List.takeWhile_cons, List.takeWhile_cons]
    split
    · rw [List.findSome?_cons, List.findSome?_cons, takeWhile_nil k ls]
    · rfl

theorem dropWhile_nil (s : List Byte) : ∀ ls : List (List Byte),
    ((ls ++ [[]]).dropWhile (fun l => decide ¬Header s l) = ls.dropWhile (fun l => decide ¬Header s l) ++ [[]] ∧
      ls.dropWhile (fun l => decide ¬Header s l) ≠ []) ∨
    ((ls ++ [[]]).dropWhile (fun l => decide ¬Header s l) = [] ∧ ls.dropWhile (fun l => decide ¬Header s l) = [])
  | [] => by
    right
    refine ⟨?_, rfl⟩
    exact List.dropWhile_cons_of_pos (by rw [decide_eq_true_eq]; rintro ⟨t, ht⟩; simp at ht)
  | l :: ls => by
    by_cases h : Header s l
    · left
      have e1 : (l :: ls).dropWhile (fun l => decide ¬Header s l) = l :: ls :=
        List.dropWhile_cons_of_neg (by rw [decide_eq_true_eq]; exact fun h' => h' h)
      have e2 : (l :: (ls ++ [[]])).dropWhile (fun l => decide ¬Header s l) = l :: (ls ++ [[]]) :=
        List.dropWhile_cons_of_neg (by rw [decide_eq_true_eq]; exact fun h' => h' h)
      rw [e1]
      exact ⟨e2, by simp⟩
    · have e1 : (l :: ls).dropWhile (fun l => decide ¬Header s l) = ls.dropWhile fun l => decide ¬Header s l :=
        List.dropWhile_cons_of_pos (by rw [decide_eq_true_eq]; exact h)
      have e2 : (l :: ls ++ [[]]).dropWhile (fun l => decide ¬Header s l) = (ls ++ [[]]).dropWhile fun l => decide ¬Header s l :=
        List.dropWhile_cons_of_pos (by rw [decide_eq_true_eq]; exact h)
      rw [e1, e2]
      exact dropWhile_nil s ls

theorem lineValue_nil (s k : List Byte) (ls : List (List Byte)) : lineValue (ls ++ [[]]) s k = lineValue ls s k := by
  unfold lineValue
  rcases dropWhile_nil s ls with ⟨h1, h2⟩ | ⟨h1, h2⟩
  · rw [h1]
    obtain ⟨x, r, hr⟩ := List.exists_cons_of_ne_nil h2
    rw [hr, List.cons_append, List.tail_cons, List.tail_cons, takeWhile_nil]
  · rw [h1, h2]

end Ulz.Inifile
