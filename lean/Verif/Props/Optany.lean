import Verif.Proofs.Optany
import Verif.Props.Optparser
/-! The option parser with any names and any arguments (C213). -/
namespace Ulz.Props
open Ulz.Optparser Ulz.Optparser.Spec
open Ulz.Stringptr (SP)
open Ulz.Stringptr.Spec (Holds)

/-- C213: op_get with any stringptr of at least one character, also with dashes or equals signs in it or without a terminator behind its last character: the
    result is the value of the first argument that gives one. Before an equals sign the stringptr counts, otherwise the C string at its pointer. -/
theorem op_get_any (p : Op) (as : List (List Byte)) (h : Args p as) (t jn : List Byte) (n : Nat) (hn : 1 ≤ n) (hnt : n ≤ t.length) (h0 : 0 ∉ t) :
    (∃ k r, op_get p ⟨t ++ 0 :: jn, n⟩ = .ok (some r) ∧ 1 ≤ k ∧ GivesAny as n t k r ∧ ∀ j, 1 ≤ j → j < k → ∀ r, ¬GivesAny as n t j r) ∨
    (op_get p ⟨t ++ 0 :: jn, n⟩ = .ok none ∧ ∀ j, 1 ≤ j → ∀ r, ¬GivesAny as n t j r) := by
  refine getLoop_first h (G := GivesAny as n t) ?_ (fun i s hi => getRound_any h hn hnt h0 hi) _ 1 (by omega) (by omega)
  rintro i r ⟨a, b, ha, _⟩
  exact (List.getElem?_eq_some_iff.1 ha).1

/-- C213: an argument gives at most one value. -/
theorem gives_any_unique (as : List (List Byte)) (n : Nat) (t : List Byte) (hn : 1 ≤ n) (hnt : n ≤ t.length) (i : Nat) (r r' : Nat × Nat)
    (h : GivesAny as n t i r) (h' : GivesAny as n t i r') : r = r' := by
  obtain ⟨a, b, ha, hb, h⟩ := h
  obtain ⟨a', b', ha', hb', h'⟩ := h'
  rw [ha] at ha'
  cases ha'
  cases body_unique hb hb'
  have contra : ∀ v, b = t.take n ++ ch '=' :: v → ch '=' ∉ t.take n → b = t → ¬(ch '=' ∉ t ∨ t.head? = some (ch '=')) := by
    intro v h1 h2 h3 h4
    rcases h4 with h4 | h4
    · exact h4 (by rw [← h3, h1]; simp)
    · match t, hnt, h2, h4 with
      | c :: t, _, h2, h4 =>
        obtain ⟨m, rfl⟩ : ∃ m, n = m + 1 := ⟨n - 1, by omega⟩
        simp at h4 h2
        exact h2.1 h4.symm
  rcases h with ⟨v, e1, e2, rfl⟩ | ⟨e1, e2, _, rfl⟩ <;> rcases h' with ⟨v', f1, f2, rfl⟩ | ⟨f1, f2, _, rfl⟩
  · have := List.append_cancel_left (e1.symm.trans f1)
    simp at this
    rw [this]
  · exact absurd f2 (contra v e1 e2 f1)
  · exact absurd e2 (contra v' f1 f2 e1)
  · rfl

/-- C213: a part of a longer C string as name (`out` as the first three characters of `output`): `--out=x` gives it a value, `--out x` does not, and the
    `x` of `--output x` is taken for its value. -/
example : GivesAny [bytes! "prog", bytes! "--out=x"] 3 (bytes! "output") 1 (1, 6) ∧
    GivesAny [bytes! "prog", bytes! "--output", bytes! "x"] 3 (bytes! "output") 1 (2, 0) ∧
    ∀ r, ¬GivesAny [bytes! "prog", bytes! "--out", bytes! "x"] 3 (bytes! "output") 1 r := by
  refine ⟨⟨_, bytes! "out=x", rfl, Or.inr ⟨by decide, rfl⟩, Or.inl ⟨bytes! "x", rfl, by decide, rfl⟩⟩,
    ⟨_, bytes! "output", rfl, Or.inr ⟨by decide, rfl⟩, Or.inr ⟨rfl, Or.inl (by decide), by decide, rfl⟩⟩, ?_⟩
  rintro r ⟨a, b, ha, hb, hh⟩
  simp only [List.getElem?_cons_succ, List.getElem?_cons_zero, Option.some.injEq] at ha
  subst ha
  have := body_unique (show Body 3 (bytes! "--out") (bytes! "out") from Or.inr ⟨by decide, rfl⟩) hb
  subst this
  rcases hh with ⟨v, e, _⟩ | ⟨e, _⟩
  · have := congrArg List.length e
    simp at this
  · exact absurd e (by decide)

/-- C213: op_get with an empty name: the first argument that is a dash and something without an equals sign behind its first character counts, and the
    result points to its third byte: behind the terminator, if the argument is only a dash. -/
theorem op_get_zero (p : Op) (as : List (List Byte)) (h : Args p as) (t jn : List Byte) (h0 : 0 ∉ t) :
    (∃ k r, op_get p ⟨t ++ 0 :: jn, 0⟩ = .ok (some r) ∧ 1 ≤ k ∧ GivesZero as k r ∧ ∀ j, 1 ≤ j → j < k → ∀ r, ¬GivesZero as j r) ∨
    (op_get p ⟨t ++ 0 :: jn, 0⟩ = .ok none ∧ ∀ j, 1 ≤ j → ∀ r, ¬GivesZero as j r) := by
  refine getLoop_first h (G := GivesZero as) ?_ (fun i s hi => getRound_zero h h0 hi) _ 1 (by omega) (by omega)
  rintro i r ⟨b, ha, _⟩
  exact (List.getElem?_eq_some_iff.1 ha).1

example : GivesZero [bytes! "prog", bytes! "-=x"] 1 (1, 2) ∧ GivesZero [bytes! "prog", bytes! "-"] 1 (1, 2) :=
  ⟨⟨bytes! "=x", rfl, Or.inr rfl, rfl⟩, ⟨[], rfl, Or.inl (by simp), rfl⟩⟩

/-- C213: the header says that flags can be given together, as in `-ltp`. They cannot: a flag of one character is found exactly if an argument is the
    dash and this character, nothing else. -/
theorem op_hasflag_single (p : Op) (as : List (List Byte)) (h : Args p as) (f : SP) (c : Byte) (hf : Holds f [c]) (hc : c ≠ ch '-') :
    (op_hasflag p f = .ok 1 ↔ ∃ i, 1 ≤ i ∧ as[i]? = some [ch '-', c]) ∧ (op_hasflag p f = .ok 0 ↔ ¬∃ i, 1 ≤ i ∧ as[i]? = some [ch '-', c]) := by
  have e : (∃ i a, 1 ≤ i ∧ as[i]? = some a ∧ Opt [c] a []) ↔ ∃ i, 1 ≤ i ∧ as[i]? = some [ch '-', c] := by
    constructor
    · rintro ⟨i, a, h1, h2, rfl | ⟨h3, _⟩⟩
      · exact ⟨i, h1, h2⟩
      · simp at h3
    · rintro ⟨i, h1, h2⟩
      exact ⟨i, _, h1, h2, Or.inl rfl⟩
  obtain ⟨r, h1, ⟨h2, h3⟩ | ⟨h2, h3⟩⟩ := op_hasflag_correct p as h f [c] hf (by simpa using hc)
  · rw [e] at h3
    rw [h1, h2]
    exact ⟨⟨fun _ => h3, fun _ => rfl⟩, by simp, fun hh => absurd h3 hh⟩
  · rw [e] at h3
    rw [h1, h2]
    exact ⟨⟨by simp, fun hh => absurd hh h3⟩, fun _ => h3, fun _ => rfl⟩

/-- `prog -ltp` has none of the flags l, t and p. -/
example (p : Op) (h : Args p [bytes! "prog", bytes! "-ltp"]) (f : SP) (c : Byte) (hf : Holds f [c]) (hc : c ∈ bytes! "ltp") : op_hasflag p f = .ok 0 := by
  have hc' : c ≠ ch '-' := by
    rintro rfl
    revert hc
    decide
  refine (op_hasflag_single p _ h f c hf hc').2.2 ?_
  rintro ⟨i, h1, h2⟩
  match i, h1 with
  | 1, _ =>
    have h3 := congrArg (Option.map List.length) h2
    simp at h3
  | i + 2, _ => simp at h2

/-- C213: arguments without a dash, such as the `arg=something` of the header, are never seen. -/
theorem op_no_dash (p : Op) (as : List (List Byte)) (h : Args p as) (hd : ∀ i a, 1 ≤ i → as[i]? = some a → a.head? ≠ some (ch '-')) (t jn : List Byte)
    (n : Nat) (hnt : n ≤ t.length) (h0 : 0 ∉ t) : op_get p ⟨t ++ 0 :: jn, n⟩ = .ok none ∧ op_hasflag p ⟨t ++ 0 :: jn, n⟩ = .ok 0 := by
  constructor
  · by_cases hn : 1 ≤ n
    · rcases op_get_any p as h t jn n hn hnt h0 with ⟨k, r, _, h1, ⟨a, b, ha, hb, _⟩, _⟩ | ⟨e, _⟩
      · exact absurd (body_iff.1 hb).1 (hd k a h1 ha)
      · exact e
    · have : n = 0 := by omega
      subst this
      rcases op_get_zero p as h t jn h0 with ⟨k, r, _, h1, ⟨b, hb, _⟩, _⟩ | ⟨e, _⟩
      · exact absurd rfl (hd k _ h1 hb)
      · exact e
  · have hf : Holds ⟨t ++ 0 :: jn, n⟩ (t.take n) := Ulz.Stringptr.holds_iff.2 ⟨t.drop n ++ 0 :: jn, by
      rw [← List.append_assoc, List.take_append_drop, List.length_take, Nat.min_eq_left hnt]⟩
    obtain ⟨r, h1, ⟨h2, j, a, b1, b2, b3⟩ | ⟨h2, _⟩⟩ := flagLoop_spec h hf (p.argc + 1) 1 (by omega) (by omega)
    · exact absurd b3.1 (hd j a b1 b2)
    · unfold op_hasflag
      rw [h1, h2]

example : Args ⟨2, [bytes! "prog" ++ [0], bytes! "arg=something" ++ [0]]⟩ [bytes! "prog", bytes! "arg=something"] ∧
    ∀ i a, 1 ≤ i → [bytes! "prog", bytes! "arg=something"][i]? = some a → a.head? ≠ some (ch '-') := by
  refine ⟨⟨rfl, ?_⟩, ?_⟩
  · intro i a h
    match i, h with
    | 0, h => injection h with h; subst h; exact ⟨by decide, [], rfl⟩
    | 1, h => injection h with h; subst h; exact ⟨by decide, [], rfl⟩
    | i + 2, h => simp at h
  · intro i a h1 h
    match i, h1, h with
    | 1, _, h => injection h with h; subst h; decide
    | i + 2, _, h => simp at h

/-- C213: an argument that is the value of an option is still looked at as an option: in `prog -name -flag` the name gets the value `-flag`, and the flag is
    set as well. -/
theorem op_value_is_flag (p : Op) (prog name flag jn : List Byte) (h : Args p [prog, bytes! "-" ++ name, bytes! "-" ++ flag]) (f : SP)
    (hf : Holds f flag) (hne : name ≠ []) (h0 : 0 ∉ name) (heq : ch '=' ∉ name) (hd : name.head? ≠ some (ch '-')) (hfd : flag.head? ≠ some (ch '-')) :
    op_get p ⟨name ++ 0 :: jn, name.length⟩ = .ok (some (2, 0)) ∧ op_hasflag p f = .ok 1 := by
  constructor
  · have g : Gives [prog, bytes! "-" ++ name, bytes! "-" ++ flag] name 1 (2, 0) := ⟨_, rfl, Or.inr ⟨Or.inl (by simp), by simp, rfl⟩⟩
    rcases op_get_correct p _ h name jn hne h0 heq hd with ⟨k, r, e, h1, h2, h3⟩ | ⟨_, h2⟩
    · have : k = 1 := by
        apply Classical.byContradiction
        intro hk
        exact h3 1 (by omega) (by omega) _ g
      subst this
      rw [e, gives_unique _ name heq hd 1 _ _ h2 g]
    · exact absurd g (h2 1 (by omega) _)
  · obtain ⟨r, h1, ⟨h2, _⟩ | ⟨_, h3⟩⟩ := op_hasflag_correct p _ h f flag hf hfd
    · rw [h1, h2]
    · exact absurd ⟨2, _, by omega, rfl, Or.inl (by simp)⟩ h3

end Ulz.Props
