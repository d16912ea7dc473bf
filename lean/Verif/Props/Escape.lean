import Verif.Model.Escape
import Verif.Spec.Escape
import Verif.Props.Sizes
import Verif.Props.Stringptrlist
/-! C234: escaping with stringptr_replace, and undoing it. -/
namespace Ulz.Props
open Ulz.Escape Ulz.Escape.Spec Ulz.Stringptr Ulz.Stringptr.Spec

theorem repl_iff (f : Nat → Byte) (d w s t : List Byte) (hd : d ≠ []) (hs : s.length + 1 < 2 ^ 64) :
    repl f d w s = .ok t ↔ ∃ pcs, Split d s pcs ∧ t = join w pcs ∧ t.length + 17 < 2 ^ 64 := by
  have key : ∀ pcs, Split d s pcs → (join w pcs).length + 17 < 2 ^ 64 → repl f d w s = .ok (join w pcs) := by
    intro pcs hp hl
    obtain ⟨pcs', buf', h1, h2⟩ := stringptr_replace_correct f s [] d [0] w [0] 0 hd hs (s.length + 2) (Nat.le_refl _)
      (fun q hq => by rw [← split_unique hp hq]; exact hl)
    obtain rfl := split_unique hp h1
    unfold repl
    rw [h2]
    simp only [ok_bind]
    unfold rdN
    simp
  constructor
  · intro h
    have hp : ∃ r, replace (some f) ⟨s ++ [0], s.length⟩ ⟨d ++ [0], d.length⟩ ⟨w ++ [0], w.length⟩ (s.length + 2) = .ok r := by
      unfold repl at h
      cases hr : replace (some f) ⟨s ++ [0], s.length⟩ ⟨d ++ [0], d.length⟩ ⟨w ++ [0], w.length⟩ (s.length + 2) with
      | error e => rw [hr] at h; cases h
      | ok r => exact ⟨r, rfl⟩
    obtain ⟨pcs, h1, -⟩ := splits_spec (d := d) (dj := [0]) (s := s) (junk := []) (x := 0) (fun _ => true) hd (by omega) (Nat.le_refl (s.length + 2))
    have hl := (stringptr_replace_iff f s [] d [0] w [0] 0 hd hs (s.length + 2) (Nat.le_refl _) pcs h1).1 hp
    rw [key pcs h1 hl] at h
    injection h with h
    subst h
    exact ⟨pcs, h1, rfl, hl⟩
  · rintro ⟨pcs, h1, rfl, h2⟩
    exact key pcs h1 h2

theorem split_char {c : Byte} {s : List Byte} {pcs : List (List Byte)} (h : Split [c] s pcs) : ∀ p ∈ pcs, c ∉ p := by
  induction h with
  | last h =>
    intro p hp
    rw [List.mem_singleton.1 hp]
    intro hc
    obtain ⟨u, v, e⟩ := List.append_of_mem hc
    exact h ⟨u, v, by rw [e]; simp⟩
  | @cons p rest ps h1 _ ih =>
    intro q hq
    rcases List.mem_cons.1 hq with rfl | hq
    · intro hc
      obtain ⟨u, v, e⟩ := List.append_of_mem hc
      refine h1 u.length (by rw [e]; simp) ?_
      rw [e]
      simp
    · exact ih q hq

theorem split_back {b : List Byte} : ∀ {pcs : List (List Byte)}, pcs ≠ [] → (∀ p ∈ pcs, ¬ b <:+: p ∧ ∀ rest k, k < p.length → ¬ b <+: (p ++ b ++ rest).drop k) →
    Split b (join b pcs) pcs
  | [], h, _ => absurd rfl h
  | [p], _, h => .last (h p (by simp)).1
  | p :: q :: ps, _, h => .cons ((h p (by simp)).2 _) (split_back (by simp) fun x hx => h x (by simp only [List.mem_cons] at hx ⊢; exact .inr hx))

theorem join_len {b : List Byte} (hb : b ≠ []) (c : Byte) : ∀ pcs : List (List Byte), (join [c] pcs).length ≤ (join b pcs).length
  | [] => Nat.le_refl _
  | [p] => Nat.le_refl _
  | p :: q :: ps => by
    have := join_len hb c (q :: ps)
    have h1 := List.length_pos_iff.2 hb
    show (p ++ [c] ++ join [c] (q :: ps)).length ≤ (p ++ b ++ join b (q :: ps)).length
    simp only [List.length_append, List.length_singleton]
    omega

theorem repl_back {f : Nat → Byte} {c : Byte} {b s t : List Byte} (hb : b ≠ []) (hs : s.length + 1 < 2 ^ 64) (h : repl f [c] b s = .ok t)
    (hp : ∀ pcs, Split [c] s pcs → ∀ p ∈ pcs, ¬ b <:+: p ∧ ∀ rest k, k < p.length → ¬ b <+: (p ++ b ++ rest).drop k) : repl f b [c] t = .ok s := by
  obtain ⟨pcs, h1, h2, h3⟩ := (repl_iff f [c] b s t (by simp) hs).1 h
  rw [repl_iff f b [c] t s hb (by omega)]
  have hj := split_join h1
  refine ⟨pcs, by rw [h2]; exact split_back (split_ne h1) (hp pcs h1), hj.symm, ?_⟩
  have := join_len hb c pcs
  rw [hj, ← h2] at this
  omega

/-- C234: replacing a character by a text that contains it is undone by replacing the text by the character, whatever the string; and only
    then is this so for every string. -/
theorem escape_undone_iff (f : Nat → Byte) (c : Byte) (b : List Byte) (hb : b ≠ []) (hl : b.length + 17 < 2 ^ 64) :
    (∀ s t, s.length + 1 < 2 ^ 64 → repl f [c] b s = .ok t → repl f b [c] t = .ok s) ↔ c ∈ b := by
  constructor
  · intro h
    apply Classical.byContradiction
    intro hc
    have h1 : repl f [c] b b = .ok b := by
      rw [repl_iff f [c] b b b (by simp) (by omega)]
      refine ⟨[b], .last ?_, rfl, hl⟩
      rintro ⟨u, v, e⟩
      exact hc (by rw [← e]; simp)
    obtain ⟨pcs, h2, h3, -⟩ := (repl_iff f b [c] b b hb (by omega)).1 (h b b (by omega) h1)
    have h4 : Split b b [[], []] := by
      have : Split b ([] ++ b ++ []) [[], []] := .cons (by intro k hk; simp at hk) (.last (by
        rintro ⟨u, v, e⟩
        simp at e
        exact hb e.2.1))
      simpa using this
    rw [split_unique h2 h4] at h3
    have h5 : b = [c] := h3
    exact hc (by rw [h5]; simp)
  · intro hc s t hs h
    refine repl_back hb hs h ?_
    intro pcs hp p hpp
    have hcp := split_char hp p hpp
    constructor
    · rintro ⟨u, v, e⟩
      exact hcp (by rw [← e]; simp [hc])
    · intro rest k hk hpre
      -- the first `c` of `b`
      obtain ⟨u, v, e, hu⟩ : ∃ u v, b = u ++ c :: v ∧ c ∉ u := by
        clear hb hl h hpre
        induction b with
        | nil => cases hc
        | cons x b ih =>
          by_cases hx : x = c
          · exact ⟨[], b, by rw [hx]; rfl, by simp⟩
          · obtain ⟨u, v, e, hu⟩ := ih (by rcases List.mem_cons.1 hc with h | h; exact absurd h.symm hx; exact h)
            exact ⟨x :: u, v, by rw [e]; rfl, by simp [hu, Ne.symm hx]⟩
      obtain ⟨tl, htl⟩ := hpre
      have h1 : (p ++ b ++ rest)[k + u.length]? = some c := by
        rw [← List.getElem?_drop, ← htl, e]
        simp
      rcases Nat.lt_or_ge (k + u.length) p.length with x | x
      · rw [List.append_assoc, List.getElem?_append_left x] at h1
        exact hcp (List.mem_of_getElem? h1)
      · rw [List.append_assoc, List.getElem?_append_right x, e, List.append_assoc, List.getElem?_append_left (by omega)] at h1
        exact hu (List.mem_of_getElem? h1)

/-- Every mark is followed by one of the letters. -/
def Marked (e : Byte) (L : List Byte) : List Byte → Prop
  | [] => True
  | x :: xs => (x = e → ∃ l ∈ L, xs.head? = some l) ∧ Marked e L xs

theorem marked_append {e : Byte} {L : List Byte} : ∀ {p q : List Byte}, Marked e L p → Marked e L q → Marked e L (p ++ q)
  | [], _, _, hq => hq
  | x :: p, q, hp, hq => by
    refine ⟨fun hx => ?_, marked_append hp.2 hq⟩
    obtain ⟨l, hl, h⟩ := hp.1 hx
    refine ⟨l, hl, ?_⟩
    cases p with
    | nil => cases h
    | cons y p => exact h

theorem marked_mono {e : Byte} {L L' : List Byte} (hL : ∀ l ∈ L, l ∈ L') : ∀ {p : List Byte}, Marked e L p → Marked e L' p
  | [], _ => trivial
  | x :: p, h => ⟨fun hx => by obtain ⟨l, hl, h'⟩ := h.1 hx; exact ⟨l, hL l hl, h'⟩, marked_mono hL h.2⟩

theorem marked_none {e : Byte} {L : List Byte} : ∀ {p : List Byte}, e ∉ p → Marked e L p
  | [], _ => trivial
  | x :: p, h => ⟨fun hx => absurd hx (by intro h'; exact h (by rw [h']; simp)), marked_none fun h' => h (List.mem_cons_of_mem _ h')⟩

theorem marked_drop {e : Byte} {L : List Byte} : ∀ {p : List Byte} (k : Nat), Marked e L p → Marked e L (p.drop k)
  | p, 0, h => h
  | [], _ + 1, _ => trivial
  | _ :: p, k + 1, h => marked_drop k h.2

theorem marked_left {e c : Byte} {L : List Byte} (hc : c ∉ L) : ∀ {p r : List Byte}, Marked e L (p ++ c :: r) → Marked e L p
  | [], _, _ => trivial
  | _ :: p, r, h => by
    refine ⟨fun hx => ?_, marked_left hc h.2⟩
    obtain ⟨l, hl, h'⟩ := h.1 hx
    cases p with
    | nil => injection h' with h'; exact absurd (h' ▸ hl) hc
    | cons y p => exact ⟨l, hl, h'⟩

theorem marked_right {e : Byte} {L : List Byte} : ∀ {p r : List Byte}, Marked e L (p ++ r) → Marked e L r
  | [], _, h => h
  | _ :: _, _, h => marked_right (p := _) h.2

theorem marked_pieces {e c : Byte} {L : List Byte} (hc : c ∉ L) {s : List Byte} {pcs : List (List Byte)} (h : Split [c] s pcs) : Marked e L s → ∀ p ∈ pcs, Marked e L p := by
  induction h with
  | last _ => intro hm p hp; rw [List.mem_singleton.1 hp]; exact hm
  | @cons p rest ps _ _ ih =>
    intro hm q hq
    rw [List.append_assoc] at hm
    rcases List.mem_cons.1 hq with rfl | hq
    · exact marked_left hc (by simpa using hm)
    · exact ih (marked_right (p := [c]) (marked_right hm)) q hq

theorem marked_join {e : Byte} {L : List Byte} {b : List Byte} (hb : Marked e L b) : ∀ {pcs : List (List Byte)}, (∀ p ∈ pcs, Marked e L p) → Marked e L (join b pcs)
  | [], _ => trivial
  | [p], h => h p (by simp)
  | p :: q :: ps, h => marked_append (marked_append (h p (by simp)) hb) (marked_join hb fun x hx => h x (by simp only [List.mem_cons] at hx ⊢; exact .inr hx))

/-- A step for a special character, with a letter that is new. -/
theorem marked_back {f : Nat → Byte} {e c l : Byte} {L r s t : List Byte} (hl : l ∉ L) (hc : c ∉ L) (hs : s.length + 1 < 2 ^ 64) (hm : Marked e L s)
    (h : repl f [c] (e :: l :: r) s = .ok t) : repl f (e :: l :: r) [c] t = .ok s := by
  refine repl_back (by simp) hs h ?_
  intro pcs hp p hpp
  have hmp := marked_pieces hc hp hm p hpp
  constructor
  · rintro ⟨u, v, x⟩
    rw [← x, List.append_assoc] at hmp
    obtain ⟨l', h1, h2⟩ := (marked_right hmp).1 rfl
    injection h2 with h2
    exact hl (h2 ▸ h1)
  · intro rest k hk hpre
    have hmk := marked_drop k hmp
    have hd : (p ++ (e :: l :: r) ++ rest).drop k = p.drop k ++ ((e :: l :: r) ++ rest) := by
      rw [List.append_assoc, List.drop_append_of_le_length (by omega)]
    rw [hd] at hpre
    cases hpk : p.drop k with
    | nil => have := congrArg List.length hpk; simp at this; omega
    | cons y ys =>
      rw [hpk] at hpre hmk
      obtain ⟨tl, htl⟩ := hpre
      simp only [List.cons_append, List.cons.injEq] at htl
      obtain ⟨h1, h2⟩ := htl
      obtain ⟨l', h3, h4⟩ := hmk.1 h1.symm
      cases ys with
      | nil => cases h4
      | cons z zs =>
        simp only [List.cons_append, List.cons.injEq] at h2
        injection h4 with h4
        exact hl (by rw [h2.1, h4]; exact h3)

theorem escape_rest (f : Nat → Byte) (e : Byte) : ∀ (tbl : List (Byte × List Byte)) (L s t : List Byte), s.length + 1 < 2 ^ 64 → Marked e L s →
    (∀ c b, (c, b) ∈ tbl → c ∉ L ∧ ∃ l r, b = e :: l :: r ∧ l ≠ e ∧ e ∉ r ∧ l ∉ L ∧ ∀ c' b', (c', b') ∈ tbl → c' ≠ l) →
    (tbl.map (·.2[1]?)).Nodup → escape f tbl s = .ok t → unescape f tbl t = .ok s
  | [], _, s, t, _, _, _, _, h => by
    injection h with h
    rw [← h]
    rfl
  | (c, b) :: tbl, L, s, t, hs, hm, ht, hn, h => by
    unfold escape at h
    cases hr : repl f [c] b s with
    | error x => rw [hr] at h; cases h
    | ok t' =>
      rw [hr] at h
      simp only [ok_bind] at h
      obtain ⟨hcL, l, r, rfl, hle, her, hlL, hcs⟩ := ht c b (by simp)
      obtain ⟨pcs, h1, h2, h3⟩ := (repl_iff f [c] _ s t' (by simp) hs).1 hr
      have hb : Marked e (l :: L) (e :: l :: r) := ⟨fun _ => ⟨l, by simp, rfl⟩, fun x => absurd x hle, marked_none her⟩
      have hm' : Marked e (l :: L) t' := by
        rw [h2]
        refine marked_join hb fun p hp => ?_
        exact marked_mono (fun x hx => List.mem_cons_of_mem _ hx) (marked_pieces hcL h1 hm p hp)
      rw [List.map_cons, List.nodup_cons] at hn
      have ih := escape_rest f e tbl (l :: L) t' t (by omega) hm' (by
        intro c' b' hcb
        obtain ⟨g1, l', r', g2, g3, g4, g5, g6⟩ := ht c' b' (List.mem_cons_of_mem _ hcb)
        refine ⟨?_, l', r', g2, g3, g4, ?_, fun c'' b'' h'' => g6 c'' b'' (List.mem_cons_of_mem _ h'')⟩
        · intro hx
          rcases List.mem_cons.1 hx with hx | hx
          · exact hcs c' b' (List.mem_cons_of_mem _ hcb) hx
          · exact g1 hx
        · intro hx
          rcases List.mem_cons.1 hx with hx | hx
          · refine hn.1 (List.mem_map.2 ⟨(c', b'), hcb, ?_⟩)
            rw [g2, hx]
            rfl
          · exact g5 hx) hn.2 h
      unfold unescape
      rw [ih]
      simp only [ok_bind]
      exact marked_back hlL hcL hs hm hr

/-- C234: escaping with a table of marked texts, the mark itself first, is undone by the reverse calls, for every string: whenever the
    escaped string could be made, unescaping it gives the original. -/
theorem escape_table (f : Nat → Byte) (e : Byte) (tbl : List (Byte × List Byte)) (ht : Table e tbl) (s t : List Byte) (hs : s.length + 1 < 2 ^ 64)
    (h : escape f tbl s = .ok t) : unescape f tbl t = .ok s := by
  obtain ⟨⟨b, rest, rfl⟩, hm, hch, hle⟩ := ht
  obtain ⟨l, r, rfl, g1, g2, g3⟩ := hm e b (by simp)
  unfold escape at h
  cases hr : repl f [e] (e :: l :: r) s with
  | error x => rw [hr] at h; cases h
  | ok t' =>
    rw [hr] at h
    simp only [ok_bind] at h
    obtain ⟨pcs, h1, h2, h3⟩ := (repl_iff f [e] _ s t' (by simp) hs).1 hr
    have hb : Marked e [l] (e :: l :: r) := ⟨fun _ => ⟨l, by simp, rfl⟩, fun x => absurd x g1, marked_none g2⟩
    have hm' : Marked e [l] t' := by
      rw [h2]
      exact marked_join hb fun p hp => marked_none (split_char h1 p hp)
    rw [List.map_cons, List.nodup_cons] at hle
    have ih := escape_rest f e rest [l] t' t (by omega) hm' (by
      intro c' b' hcb
      obtain ⟨l', r', k2, k3, k4, k5⟩ := hm c' b' (List.mem_cons_of_mem _ hcb)
      refine ⟨?_, l', r', k2, k3, k4, ?_, fun c'' b'' h'' => k5 c'' b'' (List.mem_cons_of_mem _ h'')⟩
      · intro hx
        exact g3 c' b' (List.mem_cons_of_mem _ hcb) (List.mem_singleton.1 hx)
      · intro hx
        refine hle.1 (List.mem_map.2 ⟨(c', b'), hcb, ?_⟩)
        rw [k2, List.mem_singleton.1 hx]
        rfl) hle.2 h
    unfold unescape
    rw [ih]
    simp only [ok_bind]
    refine repl_back (by simp) hs hr ?_
    intro pcs' hp p hpp
    have hcp := split_char hp p hpp
    constructor
    · rintro ⟨u, v, x⟩
      exact hcp (by rw [← x]; simp)
    · intro rest' k hk hpre
      rw [List.append_assoc, List.drop_append_of_le_length (by omega)] at hpre
      cases hpk : p.drop k with
      | nil => have := congrArg List.length hpk; simp at this; omega
      | cons y ys =>
        rw [hpk] at hpre
        obtain ⟨tl, htl⟩ := hpre
        simp only [List.cons_append, List.cons.injEq] at htl
        refine hcp (List.mem_of_mem_drop (i := k) ?_)
        rw [hpk, htl.1]
        simp

/-- The entities of HTML are such a table. -/
theorem html_table : Table (ch '&') html := by
  refine ⟨⟨_, _, rfl⟩, ?_, by decide, by decide⟩
  intro c b h
  have key : ∀ x ∈ html, x.2 = ch '&' :: x.2.getD 1 0 :: x.2.drop 2 ∧ x.2.getD 1 0 ≠ ch '&' ∧ ch '&' ∉ x.2.drop 2 ∧ ∀ y ∈ html, y.1 ≠ x.2.getD 1 0 := by decide
  obtain ⟨h1, h2, h3, h4⟩ := key (c, b) h
  exact ⟨b.getD 1 0, b.drop 2, h1, h2, h3, fun c' b' h' => h4 (c', b') h'⟩

/-- C234: escaping for HTML is undone, for every string. -/
theorem escape_html (f : Nat → Byte) (s t : List Byte) (hs : s.length + 1 < 2 ^ 64) (h : escape f html s = .ok t) : unescape f html t = .ok s :=
  escape_table f (ch '&') html html_table s t hs h

theorem repl_val (f : Nat → Byte) {d w s t : List Byte} {pcs : List (List Byte)} (h : Split d s pcs) (hd : d ≠ []) (ht : join w pcs = t) (hs : s.length < 100 ∧ t.length < 100) :
    repl f d w s = .ok t := (repl_iff f d w s t hd (by omega)).2 ⟨pcs, h, ht.symm, by omega⟩

theorem escape_step {f : Nat → Byte} {c : Byte} {b s t : List Byte} {tbl : List (Byte × List Byte)} {r : C (List Byte)} (h : repl f [c] b s = .ok t) (h' : escape f tbl t = r) :
    escape f ((c, b) :: tbl) s = r := by
  rw [← h']
  show (do escape f tbl (← repl f [c] b s)) = _
  rw [h]
  rfl

example (f : Nat → Byte) : escape f html (bytes! "a<b&lt;") = .ok (bytes! "a&lt;b&amp;lt;") := by
  have h1 : repl f [ch '&'] (bytes! "&amp;") (bytes! "a<b&lt;") = .ok (bytes! "a<b&amp;lt;") :=
    repl_val f (Split.cons (p := bytes! "a<b") (rest := bytes! "lt;") (by decide) (.last (by decide))) (by decide) (by decide) (by decide)
  have h2 : repl f [ch '<'] (bytes! "&lt;") (bytes! "a<b&amp;lt;") = .ok (bytes! "a&lt;b&amp;lt;") :=
    repl_val f (Split.cons (p := bytes! "a") (rest := bytes! "b&amp;lt;") (by decide) (.last (by decide))) (by decide) (by decide) (by decide)
  have h3 : repl f [ch '>'] (bytes! "&gt;") (bytes! "a&lt;b&amp;lt;") = .ok (bytes! "a&lt;b&amp;lt;") := repl_val f (.last (by decide)) (by decide) (by decide) (by decide)
  have h4 : repl f [ch '"'] (bytes! "&quot;") (bytes! "a&lt;b&amp;lt;") = .ok (bytes! "a&lt;b&amp;lt;") := repl_val f (.last (by decide)) (by decide) (by decide) (by decide)
  exact escape_step h1 (escape_step h2 (escape_step h3 (escape_step h4 rfl)))

/-- C234: (negative) with the mark not first, two strings have the same escaped form. -/
theorem escape_order (f : Nat → Byte) : escape f [(ch '<', bytes! "&lt;"), (ch '&', bytes! "&amp;")] (bytes! "<") = .ok (bytes! "&amp;lt;") ∧
    escape f [(ch '<', bytes! "&lt;"), (ch '&', bytes! "&amp;")] (bytes! "&lt;") = .ok (bytes! "&amp;lt;") := by
  have h : repl f [ch '&'] (bytes! "&amp;") (bytes! "&lt;") = .ok (bytes! "&amp;lt;") :=
    repl_val f (Split.cons (p := []) (rest := bytes! "lt;") (by decide) (.last (by decide))) (by decide) (by decide) (by decide)
  have h1 : repl f [ch '<'] (bytes! "&lt;") (bytes! "<") = .ok (bytes! "&lt;") :=
    repl_val f (Split.cons (p := []) (rest := []) (by decide) (.last (by decide))) (by decide) (by decide) (by decide)
  have h2 : repl f [ch '<'] (bytes! "&lt;") (bytes! "&lt;") = .ok (bytes! "&lt;") := repl_val f (.last (by decide)) (by decide) (by decide) (by decide)
  exact ⟨escape_step h1 (escape_step h rfl), escape_step h2 (escape_step h rfl)⟩

/-- C234: (negative) backslash sequences, which double the mark, are not undone: a backslash and an n come back as a backslash and a line feed. -/
theorem escape_doubled (f : Nat → Byte) : escape f backslash (bytes! "\\n") = .ok (bytes! "\\\\n") ∧
    unescape f backslash (bytes! "\\\\n") = .ok (bytes! "\\\n") := by
  have h1 : repl f [ch '\\'] (bytes! "\\\\") (bytes! "\\n") = .ok (bytes! "\\\\n") :=
    repl_val f (Split.cons (p := []) (rest := bytes! "n") (by decide) (.last (by decide))) (by decide) (by decide) (by decide)
  have h2 : repl f [ch '\n'] (bytes! "\\n") (bytes! "\\\\n") = .ok (bytes! "\\\\n") := repl_val f (.last (by decide)) (by decide) (by decide) (by decide)
  have h3 : repl f (bytes! "\\n") [ch '\n'] (bytes! "\\\\n") = .ok (bytes! "\\\n") :=
    repl_val f (Split.cons (p := bytes! "\\") (rest := []) (by decide) (.last (by decide))) (by decide) (by decide) (by decide)
  have h4 : repl f (bytes! "\\\\") [ch '\\'] (bytes! "\\\n") = .ok (bytes! "\\\n") := repl_val f (.last (by decide)) (by decide) (by decide) (by decide)
  refine ⟨escape_step h1 (escape_step h2 rfl), ?_⟩
  show (do repl f (bytes! "\\\\") [ch '\\'] (← (do repl f (bytes! "\\n") [ch '\n'] (← (pure (bytes! "\\\\n") : C (List Byte)))))) = _
  simp only [pure_eq_ok, ok_bind]
  rw [h3]
  simp only [ok_bind]
  exact h4

end Ulz.Props
