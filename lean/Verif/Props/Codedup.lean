import Verif.Proofs.CodedupRead
/-! Properties of codedup. -/
namespace Ulz.Props
open Codedup Codedup.Spec

/-- What codedup prints, for any file and options with a minimum of at least one line: reports, each of a block of at least `bl`
    lines with the places where it is repeated; every one of them is a repetition that cannot be made longer, and they do not
    overlap one another. Longer blocks come first, then earlier ones. The blocks of two reports do not overlap. And a repetition
    of at least the minimal length that leaves more than the minimum behind its start is reported at its first line, with at
    least its length, unless this line is inside of a block that is reported, or the line occurs again in the block, so early that
    the search for the copy jumped over it. -/
theorem codedup_correct {f : List Byte} {L : List (List Byte)} (hf : Lines f L) (w : Bool) {bl : Nat} (hbl : 1 ≤ bl) (start : Nat)
    (stop : Option Nat) (hbad : ∀ l ∈ used start stop L, ¬ Bad w l) (junk : List Byte) {ord : Map → Map} (ho : Visits ord)
    {fuel : Nat} (hfuel : L.length < fuel) (T : List (List Byte)) (hT : T = (used start stop L).map (text w)) :
    ∃ R : List Report, codedup w bl start stop junk ord fuel f = .ok (some (R.flatMap (render T start))) ∧
      (∀ r ∈ R, bl ≤ r.len ∧ r.copies ≠ [] ∧ (∀ j ∈ r.copies, Maximal T r.line j r.len) ∧
        r.copies.Pairwise (fun a b => a + r.len ≤ b)) ∧
      R.Pairwise (fun a b => b.len < a.len ∨ (b.len = a.len ∧ a.line < b.line)) ∧
      R.Pairwise (fun a b => a.line + a.len ≤ b.line ∨ b.line + b.len ≤ a.line) ∧
      ∀ i j len, bl ≤ len → Dup T i j len → j + bl < T.length →
        (∃ r ∈ R, r.line < i ∧ i < r.line + r.len) ∨
        (∃ r ∈ R, r.line = i ∧ len ≤ r.len ∧ (Maximal T i j r.len → j ∈ r.copies)) ∨
        (∃ d, 0 < d ∧ i + bl + d ≤ j ∧ 2 * d < j - i ∧ T[i + d]? = T[i]? ∧ (d + 1 < bl ∨ ∃ r ∈ R, r.line = i)) := by
  have hlen : (used start stop L).length ≤ L.length := by
    cases stop <;> simp [used] <;> omega
  have hread := read_spec w start stop junk hf
  rw [if_neg (fun ⟨l, h1, h2⟩ => hbad l h1 h2)] at hread
  have hh := hashed_map w (used start stop L)
  have ht := texts_map w (used start stop L)
  rw [← hT] at ht
  obtain ⟨m, es, si, r1, r2, r3, hp, hso, hent, hdis, hcov⟩ := search_spec hh hbl start ho (fuel := fuel)
    (by rw [List.length_map]; omega)
  rw [ht] at r3 hent hcov
  have hTl : T.length = (used start stop L).length := by rw [hT, List.length_map]
  rw [List.length_map, ← hTl] at hcov
  have hent' : ∀ e ∈ es, Entry T bl e := fun e he => hent e (hp.mem_iff.1 he)
  refine ⟨es.map toReport, ?_, ?_, ?_, ?_, ?_⟩
  · unfold codedup
    rw [hread]
    simp only [ok_bind, r1, r2, r3, pure_eq_ok]
  · intro r hr
    obtain ⟨e, he, rfl⟩ := List.mem_map.1 hr
    obtain ⟨a, b, c, d⟩ := toReport_spec (hent' e he)
    exact ⟨a, b, fun j hj => (c j hj).1, d⟩
  · rw [List.pairwise_map] at hso ⊢
    exact hso.imp fun h => h
  · have hd' : m.Pairwise (fun a b => a.1 + longestOf a.2 0 ≤ b.1 ∨ b.1 + longestOf b.2 0 ≤ a.1) := hdis.imp .inl
    have := (hp.symm.pairwise_iff (fun {a b} h => h.symm)).1 hd'
    rw [List.pairwise_map]
    exact this
  · intro i j len hle hdup hj
    have hsame : Same T i j bl := fun k hk => hdup.2.2 k (by omega)
    have skip : ∀ D : List Item, (∀ x ∈ D, ∃ e ∈ m, e.1 = i) → (∃ j0 h0, i + bl ≤ j0 ∧ j0 < j ∧ j < j0 + h0 ∧ i + h0 ≤ j0 ∧
        Same T i j0 h0 ∧ (h0 < bl ∨ ∃ x ∈ D, x.lineno = j0 ∧ x.dupes = h0)) →
        ∃ d, 0 < d ∧ i + bl + d ≤ j ∧ 2 * d < j - i ∧ T[i + d]? = T[i]? ∧
          (d + 1 < bl ∨ ∃ r ∈ es.map toReport, r.line = i) := by
      rintro D hD ⟨j0, h0, z1, z2, z3, z4, z5, z6⟩
      obtain ⟨s1, s2, s3⟩ := skip_again (len := len) (by omega) hdup.2.2 z2 z3 z4 z5
      refine ⟨j - j0, s1, by omega, s2, s3, ?_⟩
      rcases z6 with z6 | ⟨x, hx, _⟩
      · exact .inl (by omega)
      · obtain ⟨e, he, hei⟩ := hD x hx
        exact .inr ⟨toReport e, List.mem_map_of_mem (hp.mem_iff.2 he), hei⟩
    rcases hcov i (by have := hdup.1; omega) with ⟨e, he, h⟩ | ⟨e, he, rfl⟩ | hfound
    · exact .inl ⟨toReport e, List.mem_map_of_mem (hp.mem_iff.2 he), h⟩
    · obtain ⟨_, _, h3, _, h5⟩ := hent e he
      rcases h5 j (by have := hdup.1; omega) hj with ⟨x, hx, hxj⟩ | h | h
      · refine .inr (.inl ⟨toReport e, List.mem_map_of_mem (hp.mem_iff.2 he), rfl, ?_, ?_⟩)
        · have h1 := Maximal.unique hdup (hxj ▸ (h3 x hx).2.2)
          have h2 := (longestOf_le e.2 0).2.1 x hx
          exact Nat.le_trans h1 h2
        · intro hmax
          have hxm := (h3 x hx).2.2
          rw [hxj] at hxm
          have e1 := Maximal.unique hmax.1 hxm
          have e2 := Maximal.unique hxm.1 hmax
          exact List.mem_map.2 ⟨x, List.mem_filter.2 ⟨hx, by simp only [toReport] at e1 e2; simp; omega⟩, hxj⟩
      · exact absurd hsame h
      · exact .inr (.inr (skip e.2 (fun _ _ => ⟨e, he, rfl⟩) h))
    · rcases hfound j (by have := hdup.1; omega) hj with ⟨x, hx, _⟩ | h | h
      · simp at hx
      · exact absurd hsame h
      · exact .inr (.inr (skip [] (by simp) h))

/-- Every file has lines, so the theorem above says something about every file. -/
theorem codedup_lines (f : List Byte) : ∃ L, Lines f L := lines_exist _ f (Nat.lt_succ_self _)

/-- With -w, a line whose first character that is not white space is above 127 (and is not 255) makes the program call `isspace`
    with a negative number: undefined. -/
theorem codedup_isspace_bug {f : List Byte} {L : List (List Byte)} (hf : Lines f L) (bl start : Nat) (stop : Option Nat)
    {l : List Byte} (hl : l ∈ used start stop L) (hb : Bad true l) (junk : List Byte) (ord : Map → Map) (fuel : Nat) :
    codedup true bl start stop junk ord fuel f = .error .oobRead := by
  have hread := read_spec true start stop junk hf
  rw [if_pos ⟨l, hl, hb⟩] at hread
  unfold codedup
  rw [hread]; rfl

/-- With -i 0 the program never ends, for any file that has a line to look at. -/
theorem codedup_zero_hangs {f : List Byte} {L : List (List Byte)} (hf : Lines f L) (w : Bool) (start : Nat) (stop : Option Nat)
    (hbad : ∀ l ∈ used start stop L, ¬ Bad w l) (hne : used start stop L ≠ []) (junk : List Byte) (ord : Map → Map) (fuel : Nat) :
    codedup w 0 start stop junk ord fuel f = .error .hang := by
  have hread := read_spec w start stop junk hf
  rw [if_neg (fun ⟨l, h1, h2⟩ => hbad l h1 h2)] at hread
  unfold codedup
  rw [hread]
  simp only [ok_bind]
  rw [iLoop_hang (hashed_map w _) fuel 0 [] (by rw [List.length_map]; exact List.length_pos_iff.2 hne)]
  rfl

/-- The search needs a line behind the copy: `2 * bl` lines or fewer print nothing, even if the second half repeats the first. -/
theorem codedup_end_missed {f : List Byte} {L : List (List Byte)} (hf : Lines f L) (w : Bool) {bl : Nat} (hbl : 1 ≤ bl) (start : Nat)
    (stop : Option Nat) (hbad : ∀ l ∈ used start stop L, ¬ Bad w l) (junk : List Byte) {ord : Map → Map} (ho : Visits ord)
    {fuel : Nat} (hfuel : L.length < fuel) (hshort : (used start stop L).length ≤ 2 * bl) :
    codedup w bl start stop junk ord fuel f = .ok (some []) := by
  have hlen : (used start stop L).length ≤ L.length := by
    cases stop <;> simp [used] <;> omega
  have hread := read_spec w start stop junk hf
  rw [if_neg (fun ⟨l, h1, h2⟩ => hbad l h1 h2)] at hread
  obtain ⟨m, es, si, r1, r2, r3, hp, _, hent, _, _⟩ := search_spec (hashed_map w (used start stop L)) hbl start ho (fuel := fuel)
    (by rw [List.length_map]; omega)
  rw [texts_map] at r3 hent
  have hes : es = [] := by
    cases es with
    | nil => rfl
    | cons e es =>
      obtain ⟨h1, _, h3, _⟩ := hent e (hp.mem_iff.1 (by simp))
      obtain ⟨x, hx⟩ := List.exists_mem_of_ne_nil _ h1
      obtain ⟨a, b, c⟩ := h3 x hx
      have := c.1.1
      rw [List.length_map] at a
      omega
  unfold codedup
  rw [hread]
  simp only [ok_bind, r1, r2, r3, pure_eq_ok, hes]
  rfl

/-- With one more line behind it the repetition is found: exactly the last line of the file decides. -/
theorem codedup_end_boundary {f : List Byte} {X : List (List Byte)} {y : List Byte} (hX : X ≠ [])
    (junk : List Byte) {ord : Map → Map} (ho : Visits ord) {fuel : Nat} (hfuel : 2 * X.length + 1 < fuel) :
    (Lines f (X ++ X) → codedup false X.length 0 none junk ord fuel f = .ok (some [])) ∧
    (Lines f (X ++ X ++ [y]) → ∃ R : List Report, codedup false X.length 0 none junk ord fuel f =
        .ok (some (R.flatMap (render ((X ++ X ++ [y]).map (text false)) 0))) ∧
      ∃ r ∈ R, r.line = 0 ∧ r.len = X.length ∧ X.length ∈ r.copies) := by
  have hpos := List.length_pos_iff.2 hX
  have nobad : ∀ L : List (List Byte), ∀ l ∈ used 0 none L, ¬ Bad false l := fun L l _ h => by simp [Bad] at h
  constructor
  · intro hf
    refine codedup_end_missed hf false hpos 0 none (nobad _) junk ho ?_ ?_
    · simp; omega
    · simp [used]; omega
  · intro hf
    obtain ⟨R, h1, h2, h3, h4, h5⟩ := codedup_correct hf false hpos 0 none (nobad _) junk ho (fuel := fuel)
      (by simp; omega) _ rfl
    refine ⟨R, h1, ?_⟩
    simp only [used, List.drop_zero] at h2 h5
    generalize hTT : (X ++ X ++ [y]).map (text false) = T at h2 h5
    have hTl : T.length = 2 * X.length + 1 := by rw [← hTT]; simp; omega
    have hdup : Dup T 0 X.length X.length := by
      refine ⟨by omega, by omega, fun k hk => ?_⟩
      rw [← hTT, List.getElem?_map, List.getElem?_map, List.append_assoc, List.getElem?_append_left (by omega),
        List.getElem?_append_right (by omega), List.getElem?_append_left (by omega)]
      congr 2; omega
    rcases h5 0 X.length X.length (Nat.le_refl _) hdup (by omega) with ⟨r, _, h, _⟩ | ⟨r, hr, hl, hle, hm⟩ | ⟨d, hd, hd', _⟩
    · omega
    · obtain ⟨a, b, c, _⟩ := h2 r hr
      obtain ⟨j, hj⟩ := List.exists_mem_of_ne_nil _ b
      have c1 := (c j hj).1.1
      have c2 := (c j hj).1.2.1
      have hlen : r.len = X.length := by omega
      refine ⟨r, hr, hl, hlen, hm ?_⟩
      rw [hlen]
      exact ⟨hdup, fun h => by have := h.1; omega⟩
    · omega

/-- If nothing is printed, the only repetitions of the minimal length are those at the very end of the file and those that begin with
    a line that occurs again inside of the block. -/
theorem codedup_silent {f : List Byte} {L : List (List Byte)} (hf : Lines f L) (w : Bool) {bl : Nat} (hbl : 1 ≤ bl) (start : Nat)
    (stop : Option Nat) (hbad : ∀ l ∈ used start stop L, ¬ Bad w l) (junk : List Byte) {ord : Map → Map} (ho : Visits ord)
    {fuel : Nat} (hfuel : L.length < fuel) (T : List (List Byte)) (hT : T = (used start stop L).map (text w))
    (hsilent : codedup w bl start stop junk ord fuel f = .ok (some [])) {i j : Nat} (hdup : Dup T i j bl) :
    j + bl = T.length ∨ ∃ d, 0 < d ∧ d + 1 < bl ∧ i + bl + d ≤ j ∧ T[i + d]? = T[i]? := by
  obtain ⟨R, h1, _, _, _, h5⟩ := codedup_correct hf w hbl start stop hbad junk ho hfuel T hT
  have hR : R = [] := by
    rw [hsilent] at h1
    have h := (Option.some.inj (Except.ok.inj h1)).symm
    cases R with
    | nil => rfl
    | cons r R => simp [render] at h
  subst hR
  have := hdup.2.1
  by_cases hj : j + bl < T.length
  · rcases h5 i j bl (Nat.le_refl _) hdup hj with ⟨r, hr, _⟩ | ⟨r, hr, _⟩ | ⟨d, d1, d2, d3, d4, d5 | ⟨r, hr, _⟩⟩
    · simp at hr
    · simp at hr
    · exact .inr ⟨d, d1, d5, d2, d4⟩
    · simp at hr
  · exact .inl (by omega)

/-- Such a repetition is missed: the first three lines are `a`, `a`, `b`, and they come again after a further `a`. The two lines `a`
    that match at line 3 make the search go on at line 5, behind the copy at line 4. -/
theorem codedup_skip_bug {f : List Byte} {a b y : List Byte} (hf : Lines f [a, a, b, a, a, a, b, y])
    (hab : text false a ≠ text false b) (junk : List Byte) (ord : Map → Map) (ho : Visits ord) {fuel : Nat} (hfuel : 8 < fuel) :
    Dup ([a, a, b, a, a, a, b, y].map (text false)) 0 4 3 ∧
    codedup false 3 0 none junk ord fuel f = .ok (some []) := by
  constructor
  · refine ⟨by omega, by simp, fun k hk => ?_⟩
    rcases k with _ | _ | _ | k
    · rfl
    · rfl
    · rfl
    · omega
  · have hread := read_spec false 0 none junk hf
    rw [if_neg (fun ⟨l, _, h⟩ => by simp [Bad] at h)] at hread
    unfold codedup
    rw [hread]
    have hs : iLoop ((used 0 none [a, a, b, a, a, a, b, y]).map (fun l => (hashOf (text false l) 0, text false l))) 3 fuel 0 [] =
        .ok [] := by
      exact skip_none hab hfuel
    have ho0 : ord [] = [] := (ho []).eq_nil
    simp only [ok_bind, hs, ho0]
    rfl

/-- A line of 1023 bytes is counted twice: once for its bytes, once, empty, for its newline. -/
theorem codedup_long_line {l f : List Byte} {K : List (List Byte)} (hl : l.length = 1023) (hn : ch '\n' ∉ l) (hf : Lines f K) :
    Lines (l ++ bytes! "\n" ++ f) (l :: [] :: K) :=
  ⟨hn, .inr (.inl ⟨hl, bytes! "\n" ++ f, by rw [List.append_assoc], by simp, .inl ⟨by simp, f, by simp, hf⟩⟩)⟩

/-- With `-e end` the file is read as if it ended before its line `end - 1`, counted from zero. -/
theorem codedup_end_option {f g : List Byte} {L : List (List Byte)} {e : Nat} (hf : Lines f L) (hg : Lines g (L.take (e - 1)))
    (w : Bool) (bl start : Nat) (junk : List Byte) (ord : Map → Map) (fuel : Nat) :
    codedup w bl start (some e) junk ord fuel f = codedup w bl start none junk ord fuel g := by
  unfold codedup
  rw [read_spec w start (some e) junk hf, read_spec w start none junk hg]
  rfl

/-! Cases that meet the hypotheses. -/

/-- A file with a repeated block. -/
theorem codedup_case : Lines (bytes! "if\n x\nif\n x\nz\n") [bytes! "if", bytes! " x", bytes! "if", bytes! " x", bytes! "z"] :=
  ⟨by decide, .inl ⟨by decide, bytes! " x\nif\n x\nz\n", rfl, by decide, .inl ⟨by decide, bytes! "if\n x\nz\n", rfl, by decide,
    .inl ⟨by decide, bytes! " x\nz\n", rfl, by decide, .inl ⟨by decide, bytes! "z\n", rfl, by decide,
      .inl ⟨by decide, [], rfl, rfl⟩⟩⟩⟩⟩⟩

example : ∀ l ∈ used 0 none [bytes! "if", bytes! " x", bytes! "if", bytes! " x", bytes! "z"], ¬ Bad true l := by
  intro l hl
  rintro ⟨_, c, rest, h, hc⟩
  have hall : ∀ l ∈ used 0 none [bytes! "if", bytes! " x", bytes! "if", bytes! " x", bytes! "z"],
      ∀ c ∈ l.dropWhile space, c.toNat < 128 := by decide
  have := hall l hl c (by rw [h]; simp)
  omega

example : codedup true 2 0 none [] id 6 (bytes! "if\n x\nif\n x\nz\n") =
    .ok (some (bytes! "[DUP] 2 lines at 0: 1 dupes (2)\nif\nx\n")) := by decide +kernel

example : Visits id := fun m => .refl m
example : Visits List.reverse := fun m => List.reverse_perm m

example : codedup false 2 0 none [] id 6 (bytes! "if\n x\nif\n x\n") = .ok (some []) := by decide +kernel
example : Bad true (bytes! "\t" ++ [0xc3, 0xa4]) := ⟨rfl, 0xc3, [0xa4], by decide, by decide, by decide⟩
example : codedup true 2 0 none [] id 6 (bytes! "\t" ++ [0xc3, 0xa4]) = .error .oobRead := by decide +kernel
example : text false (bytes! "a") ≠ text false (bytes! "b") := by decide
example : Dup [bytes! "a", bytes! "b", bytes! "a", bytes! "b", bytes! "c"] 0 2 2 :=
  ⟨by decide, by decide, fun k hk => by rcases k with _ | _ | k <;> first | rfl | omega⟩
example : Maximal [bytes! "a", bytes! "b", bytes! "a", bytes! "b", bytes! "c"] 0 2 2 :=
  ⟨⟨by decide, by decide, fun k hk => by rcases k with _ | _ | k <;> first | rfl | omega⟩, fun h => by have := h.1; omega⟩

end Ulz.Props
