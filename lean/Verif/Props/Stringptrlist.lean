import Verif.Proofs.Stringptrlist
/-! C49–C53, C87–C89: splitting, joining and replacing; string lists. -/
namespace Ulz.Props
open Ulz.Stringptr Ulz.Stringptr.Spec

/-- C49. A string of `s.length` bytes followed by at least one more byte of memory, split at the character
    `d`: the pieces `pcs` are the unique ones without `d` that joined with `d` give `s`; there is one more
    than occurrences of `d`. The list refers to exactly these pieces (those whose addition found memory),
    each followed by a zero byte, and in the buffer every `d` and the byte behind `s` has become zero. -/
theorem stringptr_splitc_correct (s junk : List Byte) (x d : Byte) (ok : Nat → Bool) :
    ∃ pcs res, splitc ⟨s ++ x :: junk, s.length⟩ d.toInt ok =
        .ok (s.map (fun c => if c = d then 0 else c) ++ 0 :: junk, res) ∧
      join [d] pcs = s ∧ (∀ p ∈ pcs, d ∉ p) ∧ pcs.length = s.count d + 1 ∧
      Slices (s.map (fun c => if c = d then 0 else c) ++ 0 :: junk) res (keep ok 0 pcs) := by
  obtain ⟨pcs, h0, h1, h2, h3, h4⟩ := splitcLoop_spec d x junk ok s.length s [] [] [] 0 0 0 rfl rfl (by simp) (by simp)
  simp only [List.nil_append] at h1 h4
  have hz := zeroed_join h2
  rw [h1] at hz
  rw [hz] at h4
  refine ⟨pcs, _, h4, h1, h2, h3, ?_⟩
  rw [← hz]
  have := slices_keep (ok := ok) (slices_offsets (t := []) (junk := junk) pcs [] 0 rfl) 0
  simpa using this

/-- C49: the pieces are determined by the first two conditions. -/
theorem split_at_char_unique (d : Byte) (a b : List (List Byte)) (ha : a ≠ []) (hb : b ≠ []) (h1 : ∀ p ∈ a, d ∉ p)
    (h2 : ∀ p ∈ b, d ∉ p) (h : join [d] a = join [d] b) : a = b := join_inj ha hb h1 h2 h

/-- C49: when the list can always grow, all pieces are there. -/
theorem keep_everything {α : Type} (l : List α) : keep (fun _ => true) 0 l = l := keep_all (fun _ => rfl) l 0

example : splitc ⟨bytes! "a,bc,!", 5⟩ 44 (fun _ => true) =
    .ok (bytes! "a" ++ [0] ++ bytes! "bc" ++ [0, 0], [(0, 1), (2, 2), (5, 0)]) := by decide +kernel

/-- C49: a delimiter that is no signed char value (such as 0xe4) never matches: one piece. -/
theorem stringptr_splitc_high_delimiter (s junk : List Byte) (x : Byte) (delim : Int) (h : delim < -128 ∨ 127 < delim) :
    splitc ⟨s ++ x :: junk, s.length⟩ delim (fun _ => true) = .ok (s ++ 0 :: junk, [(0, s.length)]) := by
  have hd : ∀ c : Byte, c.toInt ≠ delim := by
    intro c e
    have h1 := BitVec.toInt_lt (x := c)
    have h2 := BitVec.le_toInt (x := c)
    simp at h1 h2
    omega
  have := splitcLoop_none delim hd x junk (fun _ => true) s.length s [] 0 rfl (by simp)
  simpa [splitc, keep] using this

/-- C49: without a byte of memory behind the text, it writes outside the object. -/
theorem stringptr_splitc_needs_room (ok : Nat → Bool) (d : Int) : ∀ s : List Byte,
    splitc ⟨s, s.length⟩ d ok = .error .oobWrite := by
  have key : ∀ (n i ls : Nat) (b : List Byte) (acc : List Piece) (k : Nat), i + n = b.length →
      splitcLoop b.length d ok (n + 1) i ls b acc k = .error .oobWrite := by
    intro n
    induction n with
    | zero =>
      intro i ls b acc k h
      unfold splitcLoop
      rw [if_pos (by omega)]
      simp only [pure_eq_ok, ok_bindE, if_true]
      unfold wr
      rw [if_neg (by omega)]
      rfl
    | succ n ih =>
      intro i ls b acc k h
      unfold splitcLoop
      rw [if_neg (by omega), rd_ok (by omega)]
      simp only [pure_eq_ok, ok_bindE]
      split
      · rw [wr_ok (by omega)]
        simp only [ok_bindE]
        have := ih (i + 1) (i + 1) (b.set i 0) (if ok k then acc ++ [(ls, i - ls)] else acc) (k + 1) (by simp; omega)
        simpa using this
      · exact ih (i + 1) ls b acc k (by omega)
  intro s
  exact key s.length 0 0 s [] 0 (by simp)

/-- C50. Split at a non-empty string: the pieces are those of the leftmost non-overlapping split, the list
    refers to them, each followed by a zero byte; the buffer keeps the delimiters except for their first
    bytes. The loop ends. -/
theorem stringptr_splits_correct (s junk d dj : List Byte) (x : Byte) (ok : Nat → Bool) (hd : d ≠ [])
    (hs : s.length < 2^64) :
    ∃ pcs res, Split d s pcs ∧ join d pcs = s ∧
      (∀ fuel, s.length + 2 ≤ fuel → splits ⟨s ++ x :: junk, s.length⟩ ⟨d ++ dj, d.length⟩ ok fuel =
        .ok (join (0 :: d.tail) pcs ++ 0 :: junk, res)) ∧
      Slices (join (0 :: d.tail) pcs ++ 0 :: junk) res (keep ok 0 pcs) := by
  obtain ⟨pcs, h1, h2⟩ := splits_spec (dj := dj) (junk := junk) (x := x) ok hd hs (fuel := s.length + 2) (Nat.le_refl _)
  refine ⟨pcs, keep ok 0 (offsets d.length 0 pcs), h1, split_join h1, fun fuel hf => ?_, ?_⟩
  · obtain ⟨qcs, q1, q2⟩ := splits_spec (dj := dj) (junk := junk) (x := x) ok hd hs hf
    rw [q2, split_unique q1 h1]
  · have hdt : d.tail.length + 1 = d.length := by
      have := List.length_pos_iff.2 hd
      simp; omega
    have := slices_keep (ok := ok) (slices_offsets (t := d.tail) (junk := junk) pcs [] 0 rfl) 0
    rw [hdt] at this
    simpa using this

/-- C50: the leftmost non-overlapping split is unique. -/
theorem split_at_string_unique (d s : List Byte) (a b : List (List Byte)) (ha : Split d s a) (hb : Split d s b) : a = b :=
  split_unique ha hb

example : splits ⟨bytes! "aaabaa!", 6⟩ ⟨bytes! "aa", 2⟩ (fun _ => true) 9 =
    .ok ([0] ++ bytes! "aab" ++ [0] ++ bytes! "a" ++ [0], [(0, 0), (2, 2), (6, 0)]) := by decide +kernel

/-- C50: with an empty delimiter it never terminates, whatever the string. -/
theorem stringptr_splits_empty_delimiter (s : SP) (hs : 0 < s.buf.length) (dj : List Byte) (ok : Nat → Bool) (fuel : Nat) :
    splits s ⟨dj, 0⟩ ok fuel = .error .hang := splitsLoop_hang s.size dj ok fuel s.buf [] 0 hs

/-- C51. `stringptr_replace` of a non-empty pattern returns a fresh terminated string in which the
    occurrences found by the leftmost non-overlapping split are replaced; it has the exact size. (It
    destroys the searched buffer like `stringptr_splits`.) -/
theorem stringptr_replace_correct (f : Nat → Byte) (s junk d dj w wj : List Byte) (x : Byte) (hd : d ≠ [])
    (hs : s.length + 1 < 2^64) (fuel : Nat) (hf : s.length + 2 ≤ fuel)
    (hr : ∀ pcs, Split d s pcs → (join w pcs).length + 17 < 2^64) :
    ∃ pcs buf', Split d s pcs ∧ replace (some f) ⟨s ++ x :: junk, s.length⟩ ⟨d ++ dj, d.length⟩ ⟨w ++ wj, w.length⟩ fuel =
      .ok (buf', some ⟨join w pcs ++ [0], (join w pcs).length⟩) := by
  obtain ⟨pcs, h1, h2⟩ := replace_spec (f := f) (dj := dj) (wj := wj) (junk := junk) (x := x) hd hs hf hr
  exact ⟨pcs, _, h1, h2⟩

/-- C51: replacing a pattern by itself gives the original text. -/
theorem stringptr_replace_self (f : Nat → Byte) (s junk d dj wj : List Byte) (x : Byte) (hd : d ≠ [])
    (hs : s.length + 17 < 2^64) (fuel : Nat) (hf : s.length + 2 ≤ fuel) :
    ∃ buf', replace (some f) ⟨s ++ x :: junk, s.length⟩ ⟨d ++ dj, d.length⟩ ⟨d ++ wj, d.length⟩ fuel =
      .ok (buf', some ⟨s ++ [0], s.length⟩) := by
  obtain ⟨pcs, buf', h1, h2⟩ := stringptr_replace_correct f s junk d dj d wj x hd (by omega) fuel hf
    (fun pcs h => by rw [split_join h]; exact hs)
  rw [split_join h1] at h2
  exact ⟨buf', h2⟩

example : replace (some fun _ => 7) ⟨bytes! "one two one!", 11⟩ ⟨bytes! "one", 3⟩ ⟨bytes! "three", 5⟩ 13 =
    .ok ([0] ++ bytes! "ne two " ++ [0] ++ bytes! "ne" ++ [0], some ⟨bytes! "three two three" ++ [0], 15⟩) := by decide +kernel

/-- C52. `stringptrlist_tostring` returns every entry followed by LF, terminated, with the exact size, or
    NULL. -/
theorem stringptrlist_tostring_correct (a : Alloc) (l : List SP) (ss : List (List Byte)) (h : HoldsAll l ss)
    (hb : (ss.map (· ++ [ch '\n'])).flatten.length + 17 < 2^64) :
    tostring a l = .ok (a.map fun _ =>
      ⟨(ss.map (· ++ [ch '\n'])).flatten ++ [0], (ss.map (· ++ [ch '\n'])).flatten.length⟩) := by
  cases a with
  | none => rfl
  | some f => exact tostring_spec h hb

/-- C52. `stringptrlist_tostring_dos` the same with CR LF. -/
theorem stringptrlist_tostring_dos_correct (a : Alloc) (l : List SP) (ss : List (List Byte)) (h : HoldsAll l ss)
    (hb : (ss.map (· ++ [ch '\r', ch '\n'])).flatten.length + 17 < 2^64) :
    tostring_dos a l = .ok (a.map fun _ =>
      ⟨(ss.map (· ++ [ch '\r', ch '\n'])).flatten ++ [0], (ss.map (· ++ [ch '\r', ch '\n'])).flatten.length⟩) := by
  cases a with
  | none => rfl
  | some f => exact tostring_spec h hb

example : tostring_dos (some fun _ => 7) [⟨bytes! "ab!", 2⟩, ⟨bytes! "", 0⟩] = .ok (some ⟨bytes! "ab\r\n\r\n" ++ [0], 6⟩) := by
  decide +kernel

/-- C52, round trip: splitting the result of `stringptrlist_tostring` into lines gives the entries and one
    more, empty, line, if no entry contains LF. -/
theorem stringptrlist_lines_roundtrip (f : Nat → Byte) (l : List SP) (ss : List (List Byte)) (h : HoldsAll l ss)
    (hb : (ss.map (· ++ [ch '\n'])).flatten.length + 17 < 2^64) (hn : ∀ s ∈ ss, ch '\n' ∉ s) :
    ∃ t buf' res, tostring (some f) l = .ok (some t) ∧ splitc t 10 (fun _ => true) = .ok (buf', res) ∧
      Slices buf' res (ss ++ [[]]) := by
  obtain ⟨pcs, res, h1, h2, h3, h4, h5⟩ := stringptr_splitc_correct (ss.map (· ++ [ch '\n'])).flatten [] 0 (ch '\n') (fun _ => true)
  refine ⟨_, _, _, stringptrlist_tostring_correct (some f) l ss h hb, h1, ?_⟩
  have : pcs = ss ++ [[]] := by
    refine join_inj (by intro e; rw [e] at h4; simp at h4) (by simp) h3 ?_ (h2.trans (lines_join ss))
    intro p hp
    rcases List.mem_append.1 hp with hp | hp
    · exact hn p hp
    · simp at hp; simp [hp]
  rw [keep_everything, this] at h5
  exact h5

example : HoldsAll [⟨bytes! "ab!", 2⟩, ⟨bytes! "", 0⟩] [bytes! "ab", []] :=
  .cons ⟨rfl, bytes! "!", rfl⟩ (.cons ⟨rfl, [], rfl⟩ .nil)

/-- C53. `stringptrlist_find` returns the index of the first equal entry, or -1 (`none`) exactly when there
    is none; `stringptrlist_contains` agrees. -/
theorem stringptrlist_find_correct (l : List SP) (ss : List (List Byte)) (h : HoldsAll l ss) (what : SP) (k : List Byte)
    (hw : Holds what k) :
    (∃ n : Nat, find (some l) (some what) = .ok (some n) ∧ lcontains (some l) (some what) = .ok true ∧
      ss[n]? = some k ∧ ∀ m < n, ss[m]? ≠ some k) ∨
    (find (some l) (some what) = .ok none ∧ lcontains (some l) (some what) = .ok false ∧ k ∉ ss) := by
  rcases findLoop_spec hw h 0 with ⟨n, a, b, c⟩ | ⟨a, b⟩
  · rw [Nat.zero_add] at a
    left; exact ⟨n, a, by unfold lcontains find; simp only; rw [a]; rfl, b, c⟩
  · right; exact ⟨a, by unfold lcontains find; simp only; rw [a]; rfl, b⟩

/-- C53: a NULL list or string is never found. -/
theorem stringptrlist_find_null (l : Option (List SP)) (w : Option SP) (h : l = none ∨ w = none) :
    find l w = .ok none ∧ lcontains l w = .ok false := by
  rcases h with rfl | rfl
  · exact ⟨rfl, rfl⟩
  · cases l <;> exact ⟨rfl, rfl⟩

example : find (some [⟨bytes! "ab", 2⟩, ⟨bytes! "xy", 1⟩, ⟨bytes! "x", 1⟩]) (some ⟨bytes! "x", 1⟩) = .ok (some 1) := by decide +kernel

/-- C87. `stringptrlist_dup_entries` replaces the entries in order by fresh terminated copies; it returns -1
    (`none`) if all could be copied, and otherwise the index `n` of the entry whose allocation failed,
    the entries from there on being untouched. -/
theorem stringptrlist_dup_entries_correct (l : List SP) (ss : List (List Byte)) (h : HoldsAll l ss)
    (hb : ∀ s ∈ ss, s.length + 1 < 2^64) (a : Nat → Alloc) :
    ∃ n, n ≤ l.length ∧ (∀ j < n, (a j).isSome) ∧ (n < l.length → a n = none) ∧
      dup_entries l a = .ok ((ss.take n).map (fun s => ⟨s ++ [0], s.length⟩) ++ l.drop n,
        if n = l.length then none else some n) := by
  obtain ⟨n, h1, h2, h3, h4⟩ := dupLoop_spec h hb a 0
  simp only [Nat.zero_add] at h2 h3 h4
  exact ⟨n, h1, h2, h4, h3⟩

example : dup_entries [⟨bytes! "ab!", 2⟩, ⟨bytes! "c", 1⟩] (fun i => if i = 0 then some fun _ => 1 else none) =
    .ok ([⟨bytes! "ab" ++ [0], 2⟩, ⟨bytes! "c", 1⟩], some 1) := by decide +kernel

/-- C88. `stringptrlist_freestrings` is allowed exactly when the non-NULL pointers of the entries are
    distinct allocations; it then frees exactly these and clears every entry. -/
theorem stringptrlist_freestrings_correct : ∀ (es : List (Nat × Nat)) (live : List Nat), live.Nodup →
    (((es.map Prod.fst).filter (· ≠ 0)).Nodup ∧ (∀ p ∈ es.map Prod.fst, p ≠ 0 → p ∈ live) →
      ∃ live', freestrings es live = .ok (es.map (fun _ => (0, 0)), live') ∧ live'.Nodup ∧
        ∀ p, p ∈ live' ↔ p ∈ live ∧ (p = 0 ∨ p ∉ es.map Prod.fst)) ∧
    (¬ (((es.map Prod.fst).filter (· ≠ 0)).Nodup ∧ (∀ p ∈ es.map Prod.fst, p ≠ 0 → p ∈ live)) →
      freestrings es live = .error .badFree) := by
  intro es
  induction es with
  | nil =>
    intro live hl
    exact ⟨fun _ => ⟨live, rfl, hl, by simp⟩, fun h => absurd ⟨by simp, by simp⟩ h⟩
  | cons e es ih =>
    intro live hl
    unfold freestrings
    by_cases he : e.1 = 0
    · rw [if_neg (by simp [he])]
      simp only [pure_eq_ok, ok_bind, List.map_cons, he]
      have h0 : ((0 :: es.map Prod.fst).filter (· ≠ 0)) = (es.map Prod.fst).filter (· ≠ 0) := by simp
      have hq : (∀ p ∈ 0 :: es.map Prod.fst, p ≠ 0 → p ∈ live) ↔ (∀ p ∈ es.map Prod.fst, p ≠ 0 → p ∈ live) := by
        constructor
        · exact fun h p hp => h p (List.mem_cons_of_mem _ hp)
        · intro h p hp hp0
          rcases List.mem_cons.1 hp with rfl | hp
          · exact absurd rfl hp0
          · exact h p hp hp0
      rw [h0, hq]
      obtain ⟨i1, i2⟩ := ih live hl
      refine ⟨fun h => ?_, fun h => by rw [i2 h]; rfl⟩
      obtain ⟨live', a, b, c⟩ := i1 h
      refine ⟨live', by rw [a]; rfl, b, fun p => ?_⟩
      rw [c, List.mem_cons]
      constructor
      · rintro ⟨h1, h2⟩
        refine ⟨h1, ?_⟩
        by_cases hp : p = 0
        · exact .inl hp
        · exact .inr fun h => h.elim hp (h2.resolve_left hp)
      · rintro ⟨h1, h2⟩
        exact ⟨h1, h2.imp id fun h h' => h (.inr h')⟩
    · rw [if_pos (by simp [he])]
      unfold Sblist.hfree
      by_cases hm : e.1 ∈ live
      · rw [if_pos hm]
        simp only [pure_eq_ok, ok_bind, List.map_cons]
        have hl' : (live.erase e.1).Nodup := hl.erase _
        obtain ⟨i1, i2⟩ := ih (live.erase e.1) hl'
        have hf : ((e.1 :: es.map Prod.fst).filter (· ≠ 0)) = e.1 :: (es.map Prod.fst).filter (· ≠ 0) := by simp [he]
        have hme : ∀ p, p ∈ live.erase e.1 ↔ p ≠ e.1 ∧ p ∈ live := fun p => hl.mem_erase_iff
        have hiff : (((e.1 :: es.map Prod.fst).filter (· ≠ 0)).Nodup ∧ (∀ p ∈ e.1 :: es.map Prod.fst, p ≠ 0 → p ∈ live)) ↔
            (((es.map Prod.fst).filter (· ≠ 0)).Nodup ∧ (∀ p ∈ es.map Prod.fst, p ≠ 0 → p ∈ live.erase e.1)) := by
          rw [hf, List.nodup_cons]
          constructor
          · rintro ⟨⟨h1, h2⟩, h3⟩
            refine ⟨h2, fun p hp hp0 => (hme p).2 ⟨?_, h3 p (List.mem_cons_of_mem _ hp) hp0⟩⟩
            rintro rfl
            exact h1 (List.mem_filter.2 ⟨hp, by simp [he]⟩)
          · rintro ⟨h1, h2⟩
            refine ⟨⟨?_, h1⟩, fun p hp hp0 => ?_⟩
            · intro h
              have h := (List.mem_filter.1 h).1
              exact ((hme _).1 (h2 _ h he)).1 rfl
            · rcases List.mem_cons.1 hp with rfl | hp
              · exact hm
              · exact ((hme _).1 (h2 p hp hp0)).2
        rw [hiff]
        refine ⟨fun h => ?_, fun h => by rw [i2 h]; rfl⟩
        obtain ⟨live', a, b, c⟩ := i1 h
        refine ⟨live', by rw [a]; rfl, b, fun p => ?_⟩
        rw [c, hme, List.mem_cons]
        constructor
        · rintro ⟨⟨h1, h2⟩, h3⟩
          exact ⟨h2, h3.imp id fun h h' => h'.elim h1 h⟩
        · rintro ⟨h1, h2⟩
          refine ⟨⟨?_, h1⟩, h2.imp id fun h h' => h (.inr h')⟩
          rintro rfl
          rcases h2 with h2 | h2
          · exact he h2
          · exact h2 (.inl rfl)
      · rw [if_neg hm]
        refine ⟨fun h => absurd (h.2 e.1 (by simp) he) hm, fun _ => rfl⟩

example : freestrings [(64, 3), (0, 0), (128, 1)] [128, 256, 64] = .ok ([(0, 0), (0, 0), (0, 0)], [256]) ∧
    freestrings [(64, 3), (64, 3)] [64] = .error .badFree := by decide +kernel

/-- A sequence of `stringptrlist_add_strdup` calls, each with the copied size, what `malloc` returns for the
    copy and whether the list can grow; the results are collected. -/
def addStrdups : List (Nat × Option Nat × Bool) → List (Nat × Nat) → List Nat → List (Nat × Nat) × List Nat × List Nat
  | [], l, live => (l, live, [])
  | (size, p, grow) :: cs, l, live =>
    let (l, live, r) := add_strdup l size p grow live
    let (l, live, rs) := addStrdups cs l live
    (l, live, r :: rs)

theorem addStrdups_spec : ∀ (cs : List (Nat × Option Nat × Bool)) (l : List (Nat × Nat)) (live : List Nat),
    (addStrdups cs l live).1 = l ++ cs.filterMap (fun c => if c.2.2 then c.2.1.map fun q => (q, c.1) else none) ∧
    (addStrdups cs l live).2.2 = cs.map (fun c => if c.2.1.isSome ∧ c.2.2 then 1 else 0) ∧
    (addStrdups cs l live).2.1 = (cs.filterMap fun c => c.2.1).reverse ++ live := by
  intro cs
  induction cs with
  | nil => intro l live; simp [addStrdups]
  | cons c cs ih =>
    intro l live
    obtain ⟨size, p, grow⟩ := c
    cases p <;> cases grow <;> simp [addStrdups, add_strdup, ih]

/-- C89. After any sequence of `stringptrlist_add_strdup` calls on an empty list, with any failures (`malloc`
    returning fresh non-NULL addresses): a call returns 1 exactly if both the copy and the list got memory,
    and then appended the copy. Freeing the strings of the list is then allowed and leaves allocated, besides
    what was allocated before, exactly the copies made for calls in which the list could not grow: those are
    leaked. -/
theorem stringptrlist_add_strdup_leak (cs : List (Nat × Option Nat × Bool)) (live : List Nat)
    (hn : (cs.filterMap (fun c => c.2.1) ++ live).Nodup) (h0 : 0 ∉ cs.filterMap (fun c => c.2.1)) :
    ∃ l live1 rs live2, addStrdups cs [] live = (l, live1, rs) ∧
      rs = cs.map (fun c => if c.2.1.isSome ∧ c.2.2 = true then 1 else 0) ∧
      freestrings l live1 = .ok (l.map (fun _ => (0, 0)), live2) ∧
      ∀ q, q ∈ live2 ↔ q ∈ live ∨ ∃ c ∈ cs, c.2.1 = some q ∧ c.2.2 = false := by
  obtain ⟨a1, a2, a3⟩ := addStrdups_spec cs [] live
  have hfst : (addStrdups cs [] live).1.map Prod.fst = cs.filterMap (fun c => if c.2.2 then c.2.1 else none) := by
    rw [a1, List.nil_append, List.map_filterMap]
    congr 1
    funext c
    cases c.2.2 <;> cases c.2.1 <;> rfl
  have hsub : (cs.filterMap (fun c => if c.2.2 then c.2.1 else none)).Sublist (cs.filterMap fun c => c.2.1) := by
    clear hn h0 a1 a2 a3 hfst
    induction cs with
    | nil => exact .slnil
    | cons c cs ih =>
      obtain ⟨size, p, grow⟩ := c
      cases p <;> cases grow <;> simp [ih]
  rw [List.nodup_append] at hn
  have hl1 : (addStrdups cs [] live).2.1.Nodup := by
    rw [a3, List.nodup_append]
    refine ⟨(List.reverse_perm _).nodup_iff.2 hn.1, hn.2.1, fun a ha b hb => hn.2.2 a (List.mem_reverse.1 ha) b hb⟩
  obtain ⟨live2, b1, _, b3⟩ := (stringptrlist_freestrings_correct (addStrdups cs [] live).1 _ hl1).1 (by
    rw [hfst]
    refine ⟨(hsub.nodup hn.1).filter _, fun p hp _ => ?_⟩
    rw [a3]
    exact List.mem_append_left _ (List.mem_reverse.2 (hsub.mem hp)))
  refine ⟨_, _, _, live2, rfl, a2, b1, fun q => ?_⟩
  rw [b3, hfst, a3, List.mem_append, List.mem_reverse]
  simp only [List.mem_filterMap]
  constructor
  · rintro ⟨h1 | h1, h2⟩
    · obtain ⟨c, hc, hq⟩ := h1
      have hq0 : q ≠ 0 := by rintro rfl; exact h0 (List.mem_filterMap.2 ⟨c, hc, hq⟩)
      refine Or.inr ⟨c, hc, hq, ?_⟩
      cases hg : c.2.2 with
      | false => rfl
      | true => exact absurd ⟨c, hc, by rw [if_pos hg]; exact hq⟩ (h2.resolve_left hq0)
    · exact Or.inl h1
  · rintro (h | ⟨c, hc, hq, hg⟩)
    · refine ⟨Or.inr h, Or.inr ?_⟩
      rintro ⟨c, hc, hq⟩
      have hq' : c.2.1 = some q := by
        cases hg : c.2.2 with
        | false => rw [hg] at hq; simp at hq
        | true => rw [if_pos hg] at hq; exact hq
      exact hn.2.2 q (List.mem_filterMap.2 ⟨c, hc, hq'⟩) q h rfl
    · refine ⟨Or.inl ⟨c, hc, hq⟩, Or.inr ?_⟩
      rintro ⟨c', hc', hq'⟩
      have hg' : c'.2.2 = true := by
        cases hg : c'.2.2 with
        | false => rw [hg] at hq'; simp at hq'
        | true => rfl
      rw [if_pos hg'] at hq'
      have : c = c' := by
        have inj : ∀ (cs : List (Nat × Option Nat × Bool)), (cs.filterMap fun c => c.2.1).Nodup → ∀ c ∈ cs, ∀ c' ∈ cs,
            c.2.1 = some q → c'.2.1 = some q → c = c' := by
          intro cs
          induction cs with
          | nil => intro _ c hc; simp at hc
          | cons e cs ih =>
            intro hnd c hc c' hc' e1 e2
            simp only [List.filterMap_cons] at hnd
            rcases List.mem_cons.1 hc with rfl | hc1
            · rcases List.mem_cons.1 hc' with rfl | hc'
              · rfl
              · rw [e1] at hnd
                simp only [List.nodup_cons, List.mem_filterMap, not_exists] at hnd
                exact absurd ⟨hc', e2⟩ (hnd.1 c')
            · rcases List.mem_cons.1 hc' with rfl | hc'
              · rw [e2] at hnd
                simp only [List.nodup_cons, List.mem_filterMap, not_exists] at hnd
                exact absurd ⟨hc1, e1⟩ (hnd.1 c)
              · refine ih ?_ c hc1 c' hc' e1 e2
                cases he : e.2.1 with
                | none => simpa [he] using hnd
                | some v => rw [he] at hnd; exact (List.nodup_cons.1 hnd).2
        exact inj cs hn.1 c hc c' hc' hq hq'
      rw [this, hg'] at hg
      exact absurd hg (by decide)

/-- Three calls: stored, copy refused, list refused. -/
example : addStrdups [(3, some 64, true), (2, none, true), (5, some 128, false)] [] [7] = ([(64, 3)], [128, 64, 7], [1, 0, 0]) := by
  decide

end Ulz.Props
