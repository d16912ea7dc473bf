import Verif.Model.Logread
import Verif.Spec.Logread
import Verif.Props.Output
import Verif.Props.Stringptrlist
/-! C230: what can be read from a log. -/
namespace Ulz.Props
open Ulz.Logread Ulz.Logread.Spec Ulz.Output Ulz.Output.Spec Ulz.Stringptr Ulz.Stringptr.Spec

/-- The file: every text and a newline. -/
theorem logAll_text {ms : List (List Vario)} {ss : List (List Byte)} (h : Messages ms ss) : ∀ (bufs : Nat → Nat → List Byte), (∀ i j, (bufs i j).length = 32) →
    logAll bufs ms = .ok (ss.map (· ++ [ch '\n'])).flatten := by
  induction h with
  | nil => intro _ _; rfl
  | cons h1 _ ih =>
    intro bufs hb
    unfold logAll
    rw [log_put_correct _ _ h1 (bufs 0) (hb 0)]
    simp only [ok_bind]
    rw [ih _ fun i => hb (i + 1)]
    rfl

theorem slices_eq {buf : List Byte} {res : List Piece} {a b : List (List Byte)} (ha : Slices buf res a) (hb : Slices buf res b) : a = b := by
  induction ha generalizing b with
  | nil => cases hb; rfl
  | cons h1 h2 _ ih =>
    cases hb with
    | cons h3 h4 h5 =>
      rw [ih h5]
      rw [h2] at h4
      rw [(List.append_inj' h4 rfl).1]

theorem slices_length {buf : List Byte} {res : List Piece} {a : List (List Byte)} (ha : Slices buf res a) : res.length = a.length := by
  induction ha with
  | nil => rfl
  | cons _ _ _ ih => simp [ih]

theorem logread_split (text : List Byte) (sep : Byte) (cs : List (List Byte)) (hcs : cs ≠ []) (hj : join [sep] cs = text) :
    ∃ buf res, Logread.split text sep = .ok (buf, res) ∧ (Slices buf res cs ↔ ∀ c ∈ cs, sep ∉ c) ∧ res.length = text.count sep + 1 := by
  obtain ⟨pcs, res, h1, h2, h3, h4, h5⟩ := stringptr_splitc_correct text [] 0 sep (fun _ => true)
  rw [keep_everything] at h5
  have hp : pcs ≠ [] := by rintro rfl; simp at h4
  refine ⟨_, res, h1, ?_, by rw [slices_length h5, h4]⟩
  constructor
  · intro h
    rw [slices_eq h h5]
    exact h3
  · intro h
    rw [split_at_char_unique sep cs pcs hcs hp h h3 (by rw [hj, h2])]
    exact h5

theorem lines_are_join (ss : List (List Byte)) : join [ch '\n'] (ss ++ [[]]) = (ss.map (· ++ [ch '\n'])).flatten := by
  induction ss with
  | nil => rfl
  | cons s ss ih =>
    rw [List.cons_append]
    cases ss with
    | nil => simp [join]
    | cons t ss =>
      rw [show join [ch '\n'] (s :: (t :: ss ++ [[]])) = s ++ [ch '\n'] ++ join [ch '\n'] (t :: ss ++ [[]]) from rfl, ih]
      rfl

theorem count_lines (ss : List (List Byte)) : (ss.map (· ++ [ch '\n'])).flatten.count (ch '\n') = ss.length + ss.flatten.count (ch '\n') := by
  induction ss with
  | nil => rfl
  | cons s ss ih =>
    rw [List.map_cons, List.flatten_cons, List.count_append, List.count_append, ih, List.flatten_cons, List.count_append, List.length_cons]
    rw [show List.count (ch '\n') [ch '\n'] = 1 by decide]
    omega

/-- C230: the lines of the log are the messages (and an empty piece at the end) exactly if no message contains a newline; every newline in
    a message makes one more line. -/
theorem logread_lines (ms : List (List Vario)) (ss : List (List Byte)) (h : Messages ms ss) (bufs : Nat → Nat → List Byte) (hb : ∀ i j, (bufs i j).length = 32) :
    ∃ file buf res, logAll bufs ms = .ok file ∧ Logread.split file (ch '\n') = .ok (buf, res) ∧
      (Slices buf res (ss ++ [[]]) ↔ ∀ s ∈ ss, ch '\n' ∉ s) ∧ res.length = ss.length + 1 + ss.flatten.count (ch '\n') := by
  obtain ⟨buf, res, h1, h2, h3⟩ := logread_split _ (ch '\n') (ss ++ [[]]) (by simp) (lines_are_join ss)
  refine ⟨_, buf, res, logAll_text h bufs hb, h1, ?_, ?_⟩
  · rw [h2]
    constructor
    · exact fun hh s hs => hh s (by simp [hs])
    · intro hh s hs
      rcases List.mem_append.1 hs with hs | hs
      · exact hh s hs
      · simp at hs; subst hs; simp
  · rw [h3, count_lines]
    omega

/-- C230: whatever has been logged, one message with one string leaves the same file. -/
theorem logread_forge (ms : List (List Vario)) (ss : List (List Byte)) (h : Messages ms ss) (hne : ms ≠ []) (p : SP) (hp : Holds p (join [ch '\n'] ss))
    (bufs bufs' : Nat → Nat → List Byte) (hb : ∀ i j, (bufs i j).length = 32) (hb' : ∀ i j, (bufs' i j).length = 32) :
    logAll bufs [[.stringptr (some p)]] = logAll bufs' ms := by
  rw [logAll_text h bufs' hb', logAll_text (.cons (.cons (.str hp) .nil) .nil) bufs hb]
  have hss : ss ≠ [] := by
    rintro rfl
    cases h
    exact hne rfl
  congr 1
  have : ∀ ss : List (List Byte), ss ≠ [] → join [ch '\n'] ss ++ [ch '\n'] = (ss.map (· ++ [ch '\n'])).flatten := by
    intro ss
    induction ss with
    | nil => intro h; exact absurd rfl h
    | cons s ss ih =>
      intro _
      cases ss with
      | nil => simp [join]
      | cons t ss =>
        rw [show join [ch '\n'] (s :: t :: ss) = s ++ [ch '\n'] ++ join [ch '\n'] (t :: ss) from rfl, List.append_assoc, ih (by simp)]
        rfl
  simpa using this ss hss

theorem record_texts {sep : Byte} : ∀ {vs : List Vario} {ts : List (List Byte)}, Texts vs ts → vs ≠ [] → ∃ us, Texts (record sep vs) us ∧ us.flatten = join [sep] ts := by
  intro vs ts h
  induction h with
  | nil => intro h; exact absurd rfl h
  | @cons v t vs ts h1 h2 ih =>
    intro _
    cases vs with
    | nil =>
      cases h2
      exact ⟨[t], .cons h1 .nil, by simp [join]⟩
    | cons w vs =>
      obtain ⟨us, h3, h4⟩ := ih (by simp)
      cases h2 with
      | @cons _ u _ us' h5 h6 =>
        refine ⟨t :: [sep] :: us, .cons h1 (.cons (.str ⟨rfl, ⟨[0], rfl⟩⟩) h3), ?_⟩
        rw [List.flatten_cons, List.flatten_cons, h4]
        show t ++ ([sep] ++ join [sep] (u :: us')) = t ++ [sep] ++ join [sep] (u :: us')
        rw [List.append_assoc]

/-- C230: with a separator between its arguments, a line gives the arguments back exactly if none of them contains the separator. -/
theorem logread_fields (sep : Byte) (vs : List Vario) (ts : List (List Byte)) (h : Texts vs ts) (hne : vs ≠ []) (bufs : Nat → List Byte) (hb : ∀ i, (bufs i).length = 32) :
    ∃ line buf res, log_put bufs (record sep vs) = .ok (line ++ [ch '\n']) ∧ Logread.split line sep = .ok (buf, res) ∧ (Slices buf res ts ↔ ∀ t ∈ ts, sep ∉ t) := by
  obtain ⟨us, h1, h2⟩ := record_texts (sep := sep) h hne
  have hts : ts ≠ [] := by
    rintro rfl
    cases h
    exact hne rfl
  obtain ⟨buf, res, h3, h4, _⟩ := logread_split _ sep ts hts rfl
  exact ⟨_, buf, res, by rw [log_put_correct _ _ h1 bufs hb, h2]; rfl, h3, h4⟩

theorem dec_snoc {x d : Nat} (hx : 0 < x) (hd : d < 10) : Numbers.Spec.dec (x * 10 + d) = Numbers.Spec.dec x ++ [BitVec.ofNat 8 (48 + d)] := by
  unfold Numbers.Spec.dec
  rw [Numbers.Spec.digitsOf, dif_neg (by omega), show (x * 10 + d) / 10 = x by omega, show (x * 10 + d) % 10 = d by omega]
  simp

theorem dec_one {d : Nat} (hd : d < 10) : Numbers.Spec.dec d = [BitVec.ofNat 8 (48 + d)] := by
  unfold Numbers.Spec.dec
  rw [Numbers.Spec.digitsOf, dif_pos hd]
  rfl

/-- C230: without a separator numbers run together: the line of `a` and `b` is also that of other numbers. -/
theorem logread_numbers (a b : Nat) (ha : 10 ≤ a) (ha' : a < 2 ^ 32) (h10 : a % 10 ≠ 0) (hb : b < 10) (bufs : Nat → List Byte) (hbuf : ∀ i, (bufs i).length = 32) :
    log_put bufs [.unsigned (BitVec.ofNat 32 a), .unsigned (BitVec.ofNat 32 b)] =
      log_put bufs [.unsigned (BitVec.ofNat 32 (a / 10)), .unsigned (BitVec.ofNat 32 (a % 10 * 10 + b))] ∧ a ≠ a / 10 := by
  have e : ∀ n < 2 ^ 32, (BitVec.ofNat 32 n).toNat = n := fun n hn => by rw [BitVec.toNat_ofNat, Nat.mod_eq_of_lt hn]
  refine ⟨?_, by omega⟩
  rw [log_put_correct _ _ (.cons .unsigned (.cons .unsigned .nil)) bufs hbuf, log_put_correct _ _ (.cons .unsigned (.cons .unsigned .nil)) bufs hbuf,
    e a ha', e b (by omega), e (a / 10) (by omega), e (a % 10 * 10 + b) (by omega)]
  have h1 : Numbers.Spec.dec a = Numbers.Spec.dec (a / 10) ++ [BitVec.ofNat 8 (48 + a % 10)] := by
    have := dec_snoc (x := a / 10) (d := a % 10) (by omega) (by omega)
    rwa [show a / 10 * 10 + a % 10 = a by omega] at this
  rw [h1, dec_snoc (by omega) hb, dec_one hb, dec_one (d := a % 10) (by omega)]
  simp

/- An example: two messages. -/
example : Messages [[.charstar (some (bytes! "login " ++ [0])), .unsigned (BitVec.ofNat 32 7)], [.other]] [bytes! "login 7", []] := by
  have h : Text (.unsigned (BitVec.ofNat 32 7)) _ := .unsigned
  rw [show Numbers.Spec.dec (BitVec.ofNat 32 7).toNat = bytes! "7" by decide +kernel] at h
  exact .cons (ts := [bytes! "login ", bytes! "7"]) (.cons (.chars (s := bytes! "login ") (junk := []) (by decide)) (.cons h .nil)) (.cons (ts := [[]]) (.cons .other .nil) .nil)

end Ulz.Props
