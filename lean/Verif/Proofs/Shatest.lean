import Verif.Model.Shatest
import Verif.Spec.Shatest
import Verif.Props.Sha512
import Verif.Props.Wholefile
import Verif.Props.Text
import Verif.Proofs.Hex
set_option linter.unusedSimpArgs false
set_option linter.unusedVariables false
namespace Ulz.Shatest
open Ulz.Sha512 Ulz.Sha512.Spec Ulz.Hex.Spec Ulz.Shatest.Spec

theorem ofNat_and127 (n : Nat) : (BitVec.ofNat 64 n &&& 127).toNat = n &&& 127 := by
  rw [BitVec.toNat_and, BitVec.toNat_ofNat, show (127 : BitVec 64).toNat = 127 from rfl, and127, and127]
  omega

/-- `crypto_hash` is init, one update and end. -/
theorem crypto_hash_run (out m : List Byte) : crypto_hash out m = (do wrN out 0 (← Sha512.run [m])) := by
  unfold crypto_hash Sha512.run updates updates sha512_update sha512_end
  have e : (sha512_init.b + BitVec.ofNat 64 m.length) = BitVec.ofNat 64 m.length := by
    show (0 : BitVec 64) + _ = _
    simp
  have ei : sha512_init.h = iv := rfl
  have ex : sha512_init.x = List.replicate 256 0 := rfl
  simp only [e, ei, ex, ofNat_and127]
  cases crypto_hashblocks iv m with
  | error u => rfl
  | ok h =>
    simp only [ok_bindE]
    cases rdN m (m.length - (m.length &&& 127)) (m.length &&& 127) with
    | error u => rfl
    | ok t =>
      simp only [ok_bindE]
      generalize wrN (List.replicate 256 0) 0 t = r
      cases r with
      | error u => rfl
      | ok x =>
        simp only [ok_bindE, pure_eq_ok, ofNat_and127]
        cases wr x (m.length &&& 127) 128 with
        | error u => rfl
        | ok x =>
          simp only [ok_bindE]
          generalize wr x (tailLen (m.length &&& 127) - 9) _ = r
          cases r with
          | error u => rfl
          | ok x =>
            simp only [ok_bindE]
            generalize ts64 x (tailLen (m.length &&& 127) - 8) _ = r
            cases r with
            | error u => rfl
            | ok x =>
              simp only [ok_bindE]
              generalize rdN x 0 _ = r
              cases r with
              | error u => rfl
              | ok y =>
                simp only [ok_bindE]
                generalize crypto_hashblocks h y = r
                cases r <;> rfl

theorem run_one (m : List Byte) (hm : m.length < 2 ^ 64) : Sha512.run [m] = .ok (sha512 m) := by
  have := Props.sha512_correct [] m (by simp) (by simpa using hm)
  simpa using this

theorem crypto_hash_spec (out m : List Byte) (hm : m.length < 2 ^ 64) (ho : 64 ≤ out.length) :
    crypto_hash out m = .ok (put out 0 (sha512 m)) := by
  rw [crypto_hash_run, run_one m hm, ok_bindE]
  unfold wrN
  rw [if_pos (by rw [Props.sha512_digest_size]; omega)]

theorem toStrLoop_eq (hash : List Byte) : ∀ (n i : Nat) (out : List Byte), i + n = hash.length →
    toStrLoop hash n i out = Hex.raw2hexLoop out (2 * i) (hash.drop i)
  | 0, i, out, h => by rw [List.drop_eq_nil_of_le (by omega)]; rfl
  | n + 1, i, out, h => by
    rw [List.drop_eq_getElem_cons (by omega : i < hash.length)]
    simp only [toStrLoop, Hex.raw2hexLoop]
    rw [rd_ok (by omega : i < hash.length), ok_bindE]
    have e : ∀ o, toStrLoop hash n (i + 1) o = Hex.raw2hexLoop o (2 * i + 2) (hash.drop (i + 1)) := by
      intro o
      rw [toStrLoop_eq hash n (i + 1) o (by omega)]; rfl
    simp only [e]
    rfl

theorem to_str_spec (hash out : List Byte) (hh : hash.length = 64) (ho : 129 ≤ out.length) :
    sha512_to_str hash out = .ok (put out 0 (text hash ++ [0])) := by
  unfold sha512_to_str
  rw [toStrLoop_eq hash 64 0 out (by omega)]
  have := Hex.raw2hexLoop_put out hash [] 0 rfl (by omega)
  simpa using this

theorem hashLoop_deliver : ∀ (ps : List (List Byte)) (c : Ctx), (∀ p ∈ ps, p ≠ [] ∧ p.length ≤ 4096) →
    hashLoop (deliver ps) ps.flatten c = (do pure (some (← updates c ps)))
  | [], c, h => by simp [deliver, hashLoop, updates]
  | p :: ps, c, h => by
    have hp := h p (by simp)
    have hl : 0 < p.length := List.length_pos_iff.2 hp.1
    have e : ((p ++ ps.flatten).take 4096).take p.length = p := by
      rw [List.take_take, Nat.min_eq_left hp.2]; simp
    simp only [deliver, List.map_cons, List.cons_append, List.flatten_cons, hashLoop, updates, e]
    rw [if_neg (by omega)]
    cases sha512_update c p with
    | error u => rfl
    | ok d =>
      simp only [ok_bindE]
      rw [List.drop_left]
      exact hashLoop_deliver ps d (fun q hq => h q (by simp [hq]))

theorem hash_deliver (ps : List (List Byte)) (out : List Byte) (h : ∀ p ∈ ps, p ≠ [] ∧ p.length ≤ 4096) :
    sha512_hash true ps.flatten (deliver ps) out =
      (do pure (← sha512_to_str (← Sha512.run ps) out, true)) := by
  unfold sha512_hash Sha512.run
  rw [hashLoop_deliver ps _ h]
  simp only [Bool.not_true, Bool.false_eq_true, if_false]
  cases updates sha512_init ps with
  | error u => rfl
  | ok c =>
    simp only [ok_bindE, pure_eq_ok]
    cases sha512_end c with
    | error u => rfl
    | ok d => rfl

/-- Reading with answers of at least 4096. -/
theorem hashLoop_full : ∀ (n : Nat) (data : List Byte), data.length / 4096 + 1 < n →
    ∃ ps : List (List Byte), (∀ c, hashLoop (List.replicate n (some 4096)) data c = hashLoop (deliver ps) ps.flatten c) ∧
      ps.flatten = data ∧ (∀ p ∈ ps, p ≠ [] ∧ p.length ≤ 4096) ∧ (∀ p ∈ ps.dropLast, p.length = 4096)
  | 0, data, h => by omega
  | n + 1, data, h => by
    by_cases h0 : data.length = 0
    · have : data = [] := List.length_eq_zero_iff.1 h0
      subst this
      exact ⟨[], by intro c; simp [List.replicate_succ, deliver, hashLoop], rfl, by simp, by simp⟩
    · have hne : data.take 4096 ≠ [] := by
        intro he; have := congrArg List.length he; rw [List.length_take, List.length_nil] at this; omega
      have hd : data.drop (data.take 4096).length = data.drop 4096 := by
        rw [List.length_take]
        by_cases hle : 4096 ≤ data.length
        · rw [Nat.min_eq_left hle]
        · rw [Nat.min_eq_right (by omega), List.drop_length, List.drop_eq_nil_of_le (by omega)]
      have step : ∀ (k : Nat) (as : List (Option Nat)) (rest : List Byte) (c : Ctx), data = data.take 4096 ++ rest →
          k = 4096 ∨ k = (data.take 4096).length →
          hashLoop (some k :: as) data c = (do hashLoop as rest (← sha512_update c (data.take 4096))) := by
        intro k as rest c hr hk
        have e : (data.take 4096).take k = data.take 4096 := by
          rcases hk with hk | hk
          · rw [hk, List.take_take]; rfl
          · rw [hk, List.take_length]
        simp only [hashLoop, e]
        rw [if_neg (by simpa using hne), hd]
        have : data.drop 4096 = rest := by
          have h1 : data.take 4096 ++ data.drop 4096 = data.take 4096 ++ rest := by
            rw [List.take_append_drop]; exact hr
          exact List.append_cancel_left h1
        rw [this]
      have hlt : data.length / 4096 + 1 < n + 1 := h
      by_cases hs : data.length ≤ 4096
      · refine ⟨[data.take 4096], ?_, ?_, ?_, by simp⟩
        · intro c
          have hnil : data = data.take 4096 ++ [] := by rw [List.append_nil, List.take_of_length_le hs]
          rw [List.replicate_succ, step 4096 _ [] c hnil (Or.inl rfl)]
          have hf : [data.take 4096].flatten = data := by simp [List.take_of_length_le hs]
          rw [hf]
          show _ = hashLoop (some _ :: [some 0]) data c
          rw [step _ _ [] c hnil (Or.inr rfl)]
          obtain ⟨m, rfl⟩ : ∃ m, n = m + 1 := ⟨n - 1, by omega⟩
          rw [List.replicate_succ]
          simp [hashLoop]
        · simp [List.take_of_length_le hs]
        · intro p hp
          rw [List.mem_singleton] at hp
          subst hp
          exact ⟨hne, by rw [List.length_take]; omega⟩
      · obtain ⟨ps, h1, h2, h3, h4⟩ := hashLoop_full n (data.drop 4096) (by rw [List.length_drop]; omega)
        have hr : data = data.take 4096 ++ data.drop 4096 := (List.take_append_drop 4096 data).symm
        refine ⟨data.take 4096 :: ps, ?_, by rw [List.flatten_cons, h2, ← hr], ?_, ?_⟩
        · intro c
          rw [List.replicate_succ, step 4096 _ _ c hr (Or.inl rfl)]
          rw [List.flatten_cons, h2, ← hr]
          show _ = hashLoop (some _ :: deliver ps) data c
          rw [step _ _ _ c hr (Or.inr rfl)]
          simp only [h1, h2]
        · intro p hp
          rcases List.mem_cons.1 hp with hp | hp
          · subst hp
            exact ⟨hne, by rw [List.length_take]; omega⟩
          · exact h3 p hp
        · intro p hp
          cases ps with
          | nil => simp at hp
          | cons q qs =>
            rw [List.dropLast_cons_of_ne_nil (by simp)] at hp
            rcases List.mem_cons.1 hp with hp | hp
            · subst hp
              rw [List.length_take]; omega
            · exact h4 p hp

theorem run_pieces (ps : List (List Byte)) (h : ∀ p ∈ ps.dropLast, p.length % 128 = 0) (hl : ps.flatten.length < 2 ^ 64) :
    Sha512.run ps = .ok (sha512 ps.flatten) := by
  by_cases hp : ps = []
  · subst hp
    exact Props.sha512_correct_no_last [] (by simp) (by simp)
  · have e := List.dropLast_concat_getLast hp
    have ef : ps.flatten = ps.dropLast.flatten ++ ps.getLast hp := by
      conv => lhs; rw [← e]
      simp
    have := Props.sha512_correct ps.dropLast (ps.getLast hp) h (by rw [← ef]; exact hl)
    rw [e, ← ef] at this
    exact this

/-- The loop in `test` gives the bytes in pieces of 128, and a last one. -/
theorem feed_pieces (buf : List Byte) : ∀ (fuel p n : Nat), n < fuel → p + n ≤ buf.length →
    ∃ ps : List (List Byte), (∀ c, feed buf fuel c p n = updates c ps) ∧ ps.flatten = (buf.drop p).take n ∧
      (∀ q ∈ ps.dropLast, q.length = 128)
  | 0, p, n, h, hb => by omega
  | fuel + 1, p, n, h, hb => by
    by_cases h0 : n = 0
    · subst h0
      exact ⟨[], by intro c; simp [feed, updates], by simp, by simp⟩
    · by_cases hn : n ≤ 128
      · refine ⟨[(buf.drop p).take n], ?_, by simp, by simp⟩
        intro c
        have hk : (if n ≥ 128 then 128 else n) = n := by split <;> omega
        have hr : rdN buf p n = .ok ((buf.drop p).take n) := by unfold rdN; rw [if_pos hb]
        simp only [feed, if_neg h0, hk, hr, ok_bindE, updates]
        cases hu : sha512_update c (List.take n (List.drop p buf)) with
        | error u => rfl
        | ok d =>
          simp only [ok_bindE, Nat.sub_self]
          cases fuel with
          | zero => rfl
          | succ m => rfl
      · obtain ⟨ps, h1, h2, h3⟩ := feed_pieces buf fuel (p + 128) (n - 128) (by omega) (by omega)
        have hpl : ((buf.drop p).take 128).length = 128 := by rw [List.length_take, List.length_drop]; omega
        refine ⟨(buf.drop p).take 128 :: ps, ?_, ?_, ?_⟩
        · intro c
          have hk : (if n ≥ 128 then 128 else n) = 128 := by rw [if_pos (by omega)]
          have hr : rdN buf p 128 = .ok ((buf.drop p).take 128) := by unfold rdN; rw [if_pos (by omega)]
          simp only [feed, if_neg h0, hk, hr, ok_bindE, updates, h1]
        · rw [List.flatten_cons, h2, ← List.drop_drop]
          have : (buf.drop p).take n = (buf.drop p).take (128 + (n - 128)) := by
            rw [Nat.add_sub_cancel' (by omega : 128 ≤ n)]
          rw [this, List.take_add]
        · intro q hq
          cases ps with
          | nil => simp at hq
          | cons r rs =>
            rw [List.dropLast_cons_of_ne_nil (by simp)] at hq
            rcases List.mem_cons.1 hq with hq | hq
            · rw [hq]; exact hpl
            · exact h3 q hq

theorem run_ok {ps : List (List Byte)} {d : List Byte} (h : Sha512.run ps = .ok d) :
    ∃ c e, updates sha512_init ps = .ok c ∧ sha512_end c = .ok e ∧ e.h = d := by
  unfold Sha512.run at h
  cases hu : updates sha512_init ps with
  | error u => rw [hu] at h; cases h
  | ok c =>
    rw [hu, ok_bindE] at h
    cases he : sha512_end c with
    | error u => rw [he] at h; cases h
    | ok e => rw [he, ok_bindE] at h; exact ⟨c, e, rfl, he, by injection h⟩

theorem differ_false (buf : List Byte) (i : Nat) (junk : List Byte) (hi : i ≤ buf.length) (h64 : i < 2 ^ 64) (hj : junk.length = 64) :
    differ buf i junk = .ok false := by
  have hr : rdN buf 0 i = .ok (buf.take i) := by unfold rdN; rw [if_pos (by omega)]; rfl
  have hl : (buf.take i).length = i := by rw [List.length_take]; omega
  have hp : ∀ d : List Byte, d.length = 64 → put junk 0 d = d := by
    intro d hd
    rw [put_zero, List.drop_eq_nil_of_le (by omega), List.append_nil]
  obtain ⟨ps, h1, h2, h3⟩ := feed_pieces buf (i + 1) 0 i (by omega) (by omega)
  have hrun := run_pieces ps (fun q hq => by rw [h3 q hq]) (by rw [h2, List.length_take]; omega)
  rw [h2, List.drop_zero] at hrun
  obtain ⟨c1, e1, a1, a2, a3⟩ := run_ok (run_one (buf.take i) (by omega))
  obtain ⟨c2, e2, b1, b2, b3⟩ := run_ok hrun
  have a1' : sha512_update sha512_init (buf.take i) = .ok c1 := by
    unfold updates updates at a1
    cases hu : sha512_update sha512_init (buf.take i) with
    | error u => rw [hu] at a1; cases a1
    | ok c => rw [hu, ok_bindE] at a1; rw [show c = c1 by injection a1]
  unfold differ
  simp only [hr, ok_bindE, crypto_hash_spec junk (buf.take i) (by omega) (by omega), a1', a2, h1, b1, b2, a3, b3,
    hp _ (Props.sha512_digest_size _)]
  simp

theorem testLoop_nil (rand : Nat → Byte) (junk : List Byte) (hj : junk.length = 64) : ∀ (n i : Nat) (buf : List Byte),
    i + n = buf.length → buf.length < 2 ^ 64 → testLoop rand junk n i buf = .ok []
  | 0, i, buf, h, hb => rfl
  | n + 1, i, buf, h, hb => by
    unfold testLoop
    rw [wr_ok (by omega : i < buf.length), ok_bindE, differ_false _ _ _ (by simp; omega) (by omega) hj, ok_bindE,
      testLoop_nil rand junk hj n (i + 1) _ (by simp; omega) (by simpa using hb)]
    rfl

theorem updates_ok (ps : List (List Byte)) : ∃ c, updates sha512_init ps = .ok c := by
  have h0 : Alike 127 sha512_init sha512_init :=
    ⟨⟨_, iv_eq⟩, rfl, rfl, List.length_replicate, List.length_replicate, rfl⟩
  obtain ⟨d, _, e, _, _⟩ := updates_alike ps ps h0 rfl rfl (fun c _ => by omega)
  exact ⟨d, e⟩

theorem hashLoop_none : ∀ (ps : List (List Byte)) (c : Ctx) (rest : List Byte) (as : List (Option Nat)), (∀ p ∈ ps, p ≠ [] ∧ p.length ≤ 4096) →
    hashLoop (ps.map (fun p => some p.length) ++ none :: as) (ps.flatten ++ rest) c = (do let _ ← updates c ps; pure none)
  | [], c, rest, as, h => by simp [hashLoop, updates]
  | p :: ps, c, rest, as, h => by
    have hp := h p (by simp)
    have hl : 0 < p.length := List.length_pos_iff.2 hp.1
    have e : ((p ++ (ps.flatten ++ rest)).take 4096).take p.length = p := by
      rw [List.take_take, Nat.min_eq_left hp.2]; simp
    simp only [List.map_cons, List.cons_append, List.flatten_cons, List.append_assoc, hashLoop, updates, e]
    rw [if_neg (by omega)]
    cases sha512_update c p with
    | error u => rfl
    | ok d =>
      simp only [ok_bindE]
      rw [List.drop_left]
      exact hashLoop_none ps d rest as (fun q hq => h q (by simp [hq]))

end Ulz.Shatest
