import Verif.Proofs.Writes
/-! Properties C139, C140 and C141: output through `write`. -/
namespace Ulz.Props
open Ulz.Writes.Spec Ulz.Output.Spec Ulz.Format Ulz.Format.Spec Ulz.Stringptr Ulz.Stringptr.Spec

/-- C139: log_put calls `write` once for the text of each argument that has one, and once for the newline. -/
theorem log_put_calls (vs : List Output.Vario) (ts : List (List Byte)) (h : Texts vs ts) (bufs : Nat → List Byte) (hb : ∀ i, (bufs i).length = 32) :
    Writes.log_put bufs vs = .ok (ts.filter (· ≠ []) ++ [bytes! "\n"]) := Writes.log_put_spec h bufs hb

/-- C139: log_puts makes one call, or none for NULL and the empty string. -/
theorem log_puts_calls (p : SP) (s : List Byte) (h : Holds p s) :
    Writes.log_puts (some p) = .ok (if s = [] then [] else [s]) ∧ Writes.log_puts none = .ok [] := ⟨Writes.log_puts_spec h, rfl⟩

/-- C139: log_puterror makes up to four calls. -/
theorem log_puterror_calls (err : Option (List Byte)) (e m : List Byte) (j : List Byte) (he : err = none ∧ e = [] ∨ ∃ j, err = some (e ++ 0 :: j) ∧ 0 ∉ e) (hm : 0 ∉ m) :
    Writes.log_puterror err (m ++ 0 :: j) = .ok ((if e = [] then [] else [e]) ++ [bytes! ": "] ++ (if m = [] then [] else [m]) ++ [bytes! "\n"]) := by
  have h1 : Writes.log_putc err = .ok (Writes.call e) := by
    rcases he with ⟨rfl, rfl⟩ | ⟨j, rfl, h0⟩
    · rfl
    · exact Writes.log_putc_spec h0
  unfold Writes.log_puterror
  rw [h1, Writes.log_putc_spec hm]
  simp only [ok_bind]
  rw [Writes.log_puts_spec (s := bytes! ": ") ⟨rfl, [0], rfl⟩]
  rfl

/-- C139: ulz_printf and ulz_fprintf make one call, or none if there is nothing to print. -/
theorem fprintf_calls (s junk : List Byte) (is : List Item) (hp : Parses s is false) (args : List Arg) (t : List Byte) (ht : render 0 is false args = .text t)
    (dest cbuf : List Byte) (hd : dest.length = 4096) (hc : cbuf.length = 32) :
    Writes.ulz_fprintf dest cbuf (s ++ 0 :: junk) args = .ok (if t = [] then [] else [t.take 4095]) := by
  have h1 := fprintf_correct s junk is hp args t ht dest cbuf hd hc
  have h2 := vsnprintf_correct s junk is false hp (some dest) 4096 (fun b hb => by injection hb with e; rw [← e]; omega) args cbuf hc
  rw [ht] at h2
  simp only [Format.Spec.Result] at h2
  rw [if_neg (by intro h; subst h; simp at hd)] at h2
  have e : (t.take 4095 = []) ↔ t = [] := by
    rw [List.take_eq_nil_iff]; simp
  rw [Writes.fprintf_of h1]
  · unfold Writes.call
    by_cases h : t = []
    · rw [if_pos (e.2 h), if_pos h]
    · rw [if_neg (fun h' => h (e.1 h')), if_neg h]
  · intro d r h
    rw [h2] at h
    injection h with h
    injection h with _ h
    rw [← h, e]
    constructor
    · intro h
      apply List.eq_nil_of_length_eq_zero
      omega
    · rintro rfl
      rfl

/-- C140: the result of `write` is ignored, so of each text any beginning may arrive, also of the later ones if one is cut short; all of
    the line if all calls write everything. -/
theorem log_put_arrives (vs : List Output.Vario) (ts : List (List Byte)) (h : Texts vs ts) (bufs : Nat → List Byte) (hb : ∀ i, (bufs i).length = 32)
    (cs : Writes.Calls) (hcs : Writes.log_put bufs vs = .ok cs) :
    (∀ out, Arrives cs out ↔ Arrives (ts ++ [bytes! "\n"]) out) ∧ (∀ out, Arrives cs out → out.Sublist (ts.flatten ++ bytes! "\n")) ∧
      Arrives cs (ts.flatten ++ bytes! "\n") := by
  rw [log_put_calls vs ts h bufs hb] at hcs
  injection hcs with hcs
  subst hcs
  refine ⟨fun out => Writes.arrives_filter ts, ?_, ?_⟩
  · intro out ho
    have := Writes.arrives_sublist (Writes.arrives_filter ts |>.1 ho)
    simpa using this
  · rw [Writes.arrives_filter]
    have := Writes.arrives_all (ts ++ [bytes! "\n"])
    rw [List.flatten_append] at this
    exact this

/-- C140: a text in the middle may be missing while what follows is there, and nobody learns of it. -/
theorem log_put_hole (vs : List Output.Vario) (as bs : List (List Byte)) (t : List Byte) (h : Texts vs (as ++ t :: bs)) (bufs : Nat → List Byte)
    (hb : ∀ i, (bufs i).length = 32) (cs : Writes.Calls) (hcs : Writes.log_put bufs vs = .ok cs) :
    Arrives cs (as.flatten ++ bs.flatten ++ bytes! "\n") := by
  rw [(log_put_arrives vs _ h bufs hb cs hcs).1]
  have h1 := Writes.arrives_all as
  have h2 := Writes.arrives_all (bs ++ [bytes! "\n"])
  have h3 := Writes.arrives_append h1 (Arrives.cons (c := t) 0 h2)
  rw [List.append_assoc, List.append_assoc]
  have e : (bs ++ [bytes! "\n"]).flatten = bs.flatten ++ bytes! "\n" := by rw [List.flatten_append]; rfl
  rw [e, List.take_zero, List.nil_append] at h3
  simpa using h3

/-- C140: of what ulz_printf and ulz_fprintf print, a beginning arrives. -/
theorem fprintf_arrives (s junk : List Byte) (is : List Item) (hp : Parses s is false) (args : List Arg) (t : List Byte) (ht : render 0 is false args = .text t)
    (dest cbuf : List Byte) (hd : dest.length = 4096) (hc : cbuf.length = 32) (cs : Writes.Calls)
    (hcs : Writes.ulz_fprintf dest cbuf (s ++ 0 :: junk) args = .ok cs) (out : List Byte) : Arrives cs out ↔ out <+: t.take 4095 := by
  rw [fprintf_calls s junk is hp args t ht dest cbuf hd hc] at hcs
  injection hcs with hcs
  subst hcs
  split
  · rename_i h0
    subst h0
    constructor
    · intro h; cases h; exact List.prefix_rfl
    · intro h
      rw [List.take_nil] at h
      rw [List.prefix_nil.1 h]; exact .nil
  · constructor
    · intro h
      cases h with
      | cons n h =>
        cases h
        rw [List.append_nil]
        exact List.take_prefix _ _
    · rintro ⟨r, hr⟩
      have := Arrives.cons (c := t.take 4095) out.length .nil
      rw [← hr, List.take_left, List.append_nil] at this
      rwa [← hr]

/-- C141: lines that two processes write with log_put at the same time may be torn, whatever they are: the text of one, the text of the
    other, and two newlines. -/
theorem log_put_torn (vs ws : List Output.Vario) (ts us : List (List Byte)) (h : Texts vs ts) (h' : Texts ws us) (bufs bufs' : Nat → List Byte)
    (hb : ∀ i, (bufs i).length = 32) (hb' : ∀ i, (bufs' i).length = 32) (cs ds : Writes.Calls) (hcs : Writes.log_put bufs vs = .ok cs)
    (hds : Writes.log_put bufs' ws = .ok ds) : Together cs ds (ts.flatten ++ us.flatten ++ bytes! "\n\n") := by
  rw [log_put_calls vs ts h bufs hb] at hcs
  rw [log_put_calls ws us h' bufs' hb'] at hds
  injection hcs with hcs
  injection hds with hds
  subst hcs hds
  refine ⟨ts.filter (· ≠ []) ++ (us.filter (· ≠ []) ++ [bytes! "\n"] ++ [bytes! "\n"]), ?_, ?_⟩
  · apply Writes.interleaved_prefix
    have : ∀ ys : Writes.Calls, Interleaved [bytes! "\n"] ys (ys ++ [bytes! "\n"]) := by
      intro ys
      induction ys with
      | nil => exact .left .nil
      | cons y ys ih => exact .right ih
    exact this _
  · simp only [List.flatten_append, Writes.flatten_filter]
    simp

/-- C141: what two processes print with ulz_printf or ulz_fprintf stays together. -/
theorem fprintf_whole (s junk s' junk' : List Byte) (is is' : List Item) (hp : Parses s is false) (hp' : Parses s' is' false) (args args' : List Arg)
    (t t' : List Byte) (ht : render 0 is false args = .text t) (ht' : render 0 is' false args' = .text t')
    (dest cbuf dest' cbuf' : List Byte) (hd : dest.length = 4096) (hc : cbuf.length = 32) (hd' : dest'.length = 4096) (hc' : cbuf'.length = 32)
    (cs ds : Writes.Calls) (hcs : Writes.ulz_fprintf dest cbuf (s ++ 0 :: junk) args = .ok cs)
    (hds : Writes.ulz_fprintf dest' cbuf' (s' ++ 0 :: junk') args' = .ok ds) (out : List Byte) :
    Together cs ds out ↔ out = t.take 4095 ++ t'.take 4095 ∨ out = t'.take 4095 ++ t.take 4095 := by
  rw [fprintf_calls s junk is hp args t ht dest cbuf hd hc] at hcs
  rw [fprintf_calls s' junk' is' hp' args' t' ht' dest' cbuf' hd' hc'] at hds
  injection hcs with hcs
  injection hds with hds
  subst hcs hds
  constructor
  · rintro ⟨zs, hz, rfl⟩
    by_cases h : t = []
    · rw [if_pos h] at hz
      rw [Writes.interleaved_nil hz]
      left
      split
      · rename_i h'; rw [h, h']; rfl
      · rw [h]; simp
    · rw [if_neg h] at hz
      by_cases h' : t' = []
      · rw [if_pos h'] at hz
        rw [Writes.interleaved_nil' hz]
        left
        rw [h']; simp
      · rw [if_neg h'] at hz
        cases hz with
        | left hz => left; rw [Writes.interleaved_nil hz]; simp
        | right hz => right; rw [Writes.interleaved_nil' hz]; simp
  · have key : ∀ (a : List Byte), (if a = [] then ([] : Writes.Calls) else [a.take 4095]).flatten = a.take 4095 := by
      intro a
      split
      · rename_i h; rw [h]; rfl
      · simp
    rintro (rfl | rfl)
    · refine ⟨(if t = [] then ([] : Writes.Calls) else [t.take 4095]) ++ (if t' = [] then ([] : Writes.Calls) else [t'.take 4095]), ?_, ?_⟩
      · have := Writes.interleaved_prefix (Writes.interleaved_refl (if t' = [] then ([] : Writes.Calls) else [t'.take 4095])) (if t = [] then ([] : Writes.Calls) else [t.take 4095])
        rwa [List.append_nil] at this
      · rw [List.flatten_append, key, key]
    · refine ⟨(if t' = [] then ([] : Writes.Calls) else [t'.take 4095]) ++ (if t = [] then ([] : Writes.Calls) else [t.take 4095]), ?_, ?_⟩
      · have : ∀ xs ys : Writes.Calls, Interleaved xs ys (ys ++ xs) := by
          intro xs ys
          induction ys with
          | nil =>
            induction xs with
            | nil => exact .nil
            | cons x xs ih => exact .left ih
          | cons y ys ih => exact .right ih
        exact this _ _
      · rw [List.flatten_append, key, key]

/-- The arguments "a", NULL and "b". -/
theorem writes_example : Texts [.stringptr (some ⟨bytes! "a", 1⟩), .stringptr none, .charstar (some (bytes! "b" ++ [0]))] [bytes! "a", [], bytes! "b"] :=
  .cons (.str ⟨rfl, [], rfl⟩) (.cons .null (.cons (.chars (s := bytes! "b") (junk := []) (by decide)) .nil))

example (bufs : Nat → List Byte) (hb : ∀ i, (bufs i).length = 32) :
    Writes.log_put bufs [.stringptr (some ⟨bytes! "a", 1⟩), .stringptr none, .charstar (some (bytes! "b" ++ [0]))] = .ok [bytes! "a", bytes! "b", bytes! "\n"] :=
  log_put_calls _ _ writes_example bufs hb
/-- "b\n" may arrive. -/
example (bufs : Nat → List Byte) (hb : ∀ i, (bufs i).length = 32) : Arrives [bytes! "a", bytes! "b", bytes! "\n"] (bytes! "b\n") :=
  log_put_hole _ [] [[], bytes! "b"] (bytes! "a") writes_example bufs hb _ (log_put_calls _ _ writes_example bufs hb)
example (bufs : Nat → List Byte) (hb : ∀ i, (bufs i).length = 32) :
    Together [bytes! "a", bytes! "b", bytes! "\n"] [bytes! "a", bytes! "b", bytes! "\n"] (bytes! "abab\n\n") :=
  log_put_torn _ _ _ _ writes_example writes_example bufs bufs hb hb _ _ (log_put_calls _ _ writes_example bufs hb) (log_put_calls _ _ writes_example bufs hb)
example (dest cbuf : List Byte) (hd : dest.length = 4096) (hc : cbuf.length = 32) :
    Writes.ulz_fprintf dest cbuf (bytes! "a%sb" ++ [0]) [.str (some (bytes! "--" ++ [0]))] = .ok [bytes! "a--b"] :=
  fprintf_calls (bytes! "a%sb") [] [.lit (ch 'a'), .conv [] .s, .lit (ch 'b')] ⟨by simp [Item.Ok, PrecsOk]; decide, by simp only [Bool.false_eq_true, if_false]; decide⟩ _ (bytes! "a--b") (by decide) dest cbuf hd hc

end Ulz.Props
