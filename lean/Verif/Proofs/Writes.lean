import Verif.Spec.Writes
import Verif.Props.Output
/-! Lemmas about output through `write`. -/
namespace Ulz.Writes
open Ulz.Writes.Spec Ulz.Output.Spec Ulz.Numbers.Spec
open Ulz.Stringptr (SP)
open Ulz.Stringptr.Spec (Holds)

/-- One call, unless there is nothing to write. -/
def call (t : List Byte) : Calls := if t = [] then [] else [t]

theorem call_flatten (t : List Byte) : (call t).flatten = t := by
  unfold call; split
  · rename_i h; rw [h]; rfl
  · simp

theorem log_puts_spec {p : SP} {s : List Byte} (h : Holds p s) : log_puts (some p) = .ok (call s) := by
  have h2 := Output.log_puts_spec h
  unfold Output.log_puts at h2
  unfold log_puts call
  simp only at h2 ⊢
  by_cases h0 : p.size = 0
  · rw [if_pos h0]
    have : s = [] := List.eq_nil_of_length_eq_zero (h.1 ▸ h0)
    rw [if_pos this]; rfl
  · rw [if_neg h0] at h2 ⊢
    have : s ≠ [] := by rintro rfl; exact h0 h.1
    rw [if_neg this, h2]; rfl

theorem log_putc_spec {s junk : List Byte} (h : 0 ∉ s) : log_putc (some (s ++ 0 :: junk)) = .ok (call s) := by
  unfold log_putc
  simp only
  rw [Hex.strlen_cstr s junk h]
  simp only [ok_bind]
  exact log_puts_spec ⟨rfl, List.prefix_append ..⟩

/-- log_putd makes one call if its result is not empty. -/
theorem log_putd_of {buf : List Byte} {v : BitVec 64} {sg : Bool} {t : List Byte} (ht : t ≠ []) (h : Output.log_putd buf v sg = .ok t) :
    log_putd buf v sg = .ok (call t) := by
  unfold Output.log_putd at h
  unfold log_putd
  cases hn : Numbers.numberToString v 10 buf 0 (if sg then Numbers.NTS_SIGNED_TYPE else 0) with
  | error u => rw [hn] at h; cases h
  | ok x =>
    obtain ⟨b, cnv⟩ := x
    rw [hn] at h
    simp only [ok_bind] at h ⊢
    cases cnv with
    | none => injection h with h; exact absurd h.symm ht
    | some r =>
      simp only at h ⊢
      cases hl : Hex.strlen (b.drop r) with
      | error u => rw [hl] at h; cases h
      | ok n =>
        rw [hl] at h
        simp only [ok_bind] at h ⊢
        rw [h, call, if_neg ht]; rfl

theorem dec_ne (n : Nat) : dec n ≠ [] := by
  unfold dec
  intro h
  have := congrArg List.length h
  rw [List.length_map] at this
  unfold digitsOf at this
  split at this <;> simp at this

theorem decInt_ne (x : Int) : decInt x ≠ [] := by
  unfold decInt
  split
  · simp
  · exact dec_ne _

theorem put1_spec (buf : List Byte) (hb : buf.length = 32) {v : Output.Vario} {t : List Byte} (h : Text v t) : put1 buf v = .ok (call t) := by
  have h2 := Output.put1_spec buf hb h
  cases h with
  | null => rfl
  | str hp => exact log_puts_spec hp
  | nullc => rfl
  | chars h0 => exact log_putc_spec h0
  | int => exact log_putd_of (decInt_ne _) h2
  | unsigned => exact log_putd_of (dec_ne _) h2
  | long => exact log_putd_of (decInt_ne _) h2
  | ulong => exact log_putd_of (dec_ne _) h2
  | other => rfl

theorem log_put_spec {vs : List Output.Vario} {ts : List (List Byte)} (h : Texts vs ts) : ∀ (bufs : Nat → List Byte), (∀ i, (bufs i).length = 32) →
    log_put bufs vs = .ok (ts.filter (· ≠ []) ++ [bytes! "\n"]) := by
  induction h with
  | nil => intro _ _; rfl
  | cons h1 _ ih =>
    intro bufs hb
    unfold log_put
    rw [put1_spec _ (hb 0) h1, ih _ (fun i => hb (i + 1))]
    simp only [ok_bind, pure_eq_ok, call]
    split
    · rename_i h0; subst h0; rfl
    · rename_i t _ _ _ h0
      rw [List.filter_cons_of_pos (by simpa using h0)]; rfl

/-! ### What arrives -/

theorem arrives_sublist {cs : Calls} {out : List Byte} (h : Arrives cs out) : out.Sublist cs.flatten := by
  induction h with
  | nil => exact List.Sublist.refl _
  | cons n _ ih => exact (List.take_sublist n _).append ih

theorem arrives_all : ∀ cs : Calls, Arrives cs cs.flatten
  | [] => .nil
  | c :: cs => by
    have := Arrives.cons (c := c) c.length (arrives_all cs)
    rwa [List.take_length] at this

theorem interleaved_nil {ys zs : Calls} (h : Interleaved [] ys zs) : zs = ys := by
  generalize hx : ([] : Calls) = xs at h
  induction h with
  | nil => rfl
  | left _ _ => cases hx
  | right _ ih => rw [ih hx]

theorem interleaved_nil' {xs zs : Calls} (h : Interleaved xs [] zs) : zs = xs := by
  generalize hx : ([] : Calls) = ys at h
  induction h with
  | nil => rfl
  | left _ ih => rw [ih hx]
  | right _ _ => cases hx

theorem interleaved_refl : ∀ ys : Calls, Interleaved [] ys ys
  | [] => .nil
  | _ :: ys => .right (interleaved_refl ys)

theorem interleaved_prefix {xs ys zs : Calls} (h : Interleaved xs ys zs) : ∀ as : Calls, Interleaved (as ++ xs) ys (as ++ zs)
  | [] => h
  | _ :: as => .left (interleaved_prefix h as)

theorem arrives_filter {cs : Calls} {out : List Byte} : ∀ ts : Calls, Arrives (ts.filter (· ≠ []) ++ cs) out ↔ Arrives (ts ++ cs) out := by
  intro ts
  induction ts generalizing out with
  | nil => exact Iff.rfl
  | cons t ts ih =>
    by_cases h : t = []
    · subst h
      rw [List.filter_cons_of_neg (by simp), ih]
      constructor
      · intro h
        exact Arrives.cons (c := []) 0 h
      · intro h
        cases h with
        | cons n h => simpa using h
    · rw [List.filter_cons_of_pos (by simpa using h)]
      constructor
      · intro h
        cases h with
        | cons n h => exact .cons n (ih.1 h)
      · intro h
        cases h with
        | cons n h => exact .cons n (ih.2 h)

theorem arrives_append {as bs : Calls} {x y : List Byte} (h : Arrives as x) (h' : Arrives bs y) : Arrives (as ++ bs) (x ++ y) := by
  induction h with
  | nil => exact h'
  | cons n _ ih => rw [List.append_assoc]; exact .cons n ih

theorem flatten_filter : ∀ ts : Calls, (ts.filter (· ≠ [])).flatten = ts.flatten
  | [] => rfl
  | t :: ts => by
    by_cases h : t = []
    · subst h
      rw [List.filter_cons_of_neg (by simp), flatten_filter ts]; rfl
    · rw [List.filter_cons_of_pos (by simpa using h), List.flatten_cons, flatten_filter ts, List.flatten_cons]

theorem fprintf_of {dest cbuf format : List Byte} {args : List Format.Arg} {t : List Byte}
    (h : Output.ulz_fprintf dest cbuf format args = .ok t) (hr : ∀ d r, Format.ulz_vsnprintf (some dest) 4096 format args cbuf = .ok (d, r) → (r = 0 ↔ t = [])) :
    ulz_fprintf dest cbuf format args = .ok (call t) := by
  unfold Output.ulz_fprintf at h
  unfold ulz_fprintf
  cases hv : Format.ulz_vsnprintf (some dest) 4096 format args cbuf with
  | error u => rw [hv] at h; cases h
  | ok x =>
    obtain ⟨d, r⟩ := x
    have hr := hr d r hv
    rw [hv] at h
    simp only [ok_bind] at h ⊢
    by_cases h0 : r = 0
    · rw [if_neg (by simpa using h0), call, if_pos (hr.1 h0)]; rfl
    · rw [if_pos h0] at h ⊢
      cases d with
      | none => cases h
      | some b =>
        simp only at h ⊢
        rw [h, call, if_neg (fun h => h0 (hr.2 h))]; rfl

end Ulz.Writes
