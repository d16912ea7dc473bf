import Verif.Spec.Shactx
import Verif.Proofs.Sha512
import Verif.Proofs.Md5
namespace Ulz.Shactx
open Ulz.Sha512 Ulz.Sha512.Spec Spec

theorem dl64Loop_total (x : List Byte) : ∀ (n o : Nat) (u : W64), o + n ≤ x.length → ∃ w, dl64Loop x o n u = .ok w
  | 0, _, u, _ => ⟨u, rfl⟩
  | n + 1, o, u, h => by
    unfold dl64Loop
    rw [rd_ok (by omega)]
    simp only [ok_bindE]
    exact dl64Loop_total x n (o + 1) _ (by omega)

theorem loadA_total {x : List Byte} (hx : x.length = 64) : ∃ r : Regs, loadA x = .ok (arr r) := by
  have t : ∀ o, o + 8 ≤ 64 → ∃ w, dl64 x o = .ok w := fun o h => dl64Loop_total x 8 o 0 (by omega)
  obtain ⟨a, ha⟩ := t 0 (by omega)
  obtain ⟨b, hb⟩ := t 8 (by omega)
  obtain ⟨c, hc⟩ := t 16 (by omega)
  obtain ⟨d, hd⟩ := t 24 (by omega)
  obtain ⟨e, he⟩ := t 32 (by omega)
  obtain ⟨f, hf⟩ := t 40 (by omega)
  obtain ⟨g, hg⟩ := t 48 (by omega)
  obtain ⟨h, hh⟩ := t 56 (by omega)
  refine ⟨⟨a, b, c, d, e, f, g, h⟩, ?_⟩
  unfold loadA
  rw [ha, hb, hc, hd, he, hf, hg, hh]
  rfl

/-- The hash field stands for the registers `r`. -/
def Loads (h : List Byte) (r : Regs) : Prop := h.length = 64 ∧ ∀ m, crypto_hashblocks h m = .ok (digest (process r m))

theorem loads_digest (r : Regs) : Loads (digest r) r := ⟨digest_length r, hashblocks_spec r⟩

theorem loads_any {h : List Byte} (hx : h.length = 64) : ∃ r, Loads h r := by
  obtain ⟨r, hr⟩ := loadA_total hx
  refine ⟨r, hx, fun m => ?_⟩
  unfold crypto_hashblocks
  rw [hr]
  simp only [ok_bindE]
  rw [blockLoop_spec _ m r (Nat.div_le_self _ _)]
  simp only [ok_bindE]
  exact storeA_spec hx _

attribute [local irreducible] digest crypto_hashblocks

theorem update_gen {c : Ctx} {r : Regs} (hh : Loads c.h r) (hx : c.x.length = 256) (buf : List Byte) :
    sha512_update c buf = .ok ⟨digest (process r (whole buf)), rest buf ++ c.x.drop (rest buf).length, c.b + BitVec.ofNat 64 buf.length⟩ := by
  have h1 := update_any (c := ⟨digest r, c.x, c.b⟩) rfl hx buf
  rw [rest_length]
  rw [show rest buf = buf.drop (128 * (buf.length / 128)) from rfl, ← h1]
  unfold sha512_update
  simp only
  rw [hh.2, hashblocks_spec]

theorem closing_length (s : Seen) (h : s.buf.length = 256) : (closing s).length = tailSize s.total := by
  unfold closing tailSize
  rw [List.length_append, List.length_take, List.length_set, List.length_map, List.length_range]
  split <;> omega

theorem tailSize_le (t : Nat) : tailSize t ≤ 256 ∧ 128 ≤ tailSize t := by unfold tailSize; split <;> omega

theorem end_gen {c : Ctx} {r : Regs} (hh : Loads c.h r) (hx : c.x.length = 256) (hd : List Byte) :
    sha512_end c = .ok ⟨digest (process r (closing ⟨hd, c.x, c.b.toNat⟩)),
      closing ⟨hd, c.x, c.b.toNat⟩ ++ c.x.drop (tailSize c.b.toNat), c.b⟩ := by
  unfold sha512_end
  have hn : (c.b &&& 127).toNat = c.b.toNat % 128 := by
    rw [BitVec.toNat_and, show (127 : BitVec 64).toNat = 127 from rfl, and127]
  rw [hn]
  simp only []
  have hlt := c.b.isLt
  unfold closing
  simp only
  rw [len_bytes9 hlt, BitVec.ofNat_toNat, BitVec.setWidth_eq]
  unfold tailSize
  generalize hm : c.b.toNat % 128 = n at *
  have hn128 : n < 128 := by omega
  generalize hN : tailLen n = N
  have hN' : N = 256 - 128 * (if n < 112 then 1 else 0) := by rw [← hN]; rfl
  have hN2 : (N = 128 ∧ n < 112) ∨ (N = 256 ∧ 112 ≤ n) := by split at hN' <;> omega
  have he : (if n < 112 then 128 else 256) = N := by split <;> omega
  rw [he, wr_ok (by omega)]
  simp only [ok_bindE]
  have hdrop : c.x.drop N = (c.x.set n 128).drop N := by
    rw [List.drop_set_of_lt (by omega)]
  rw [hdrop, show (0x80 : Byte) = 128 from rfl]
  generalize hX : c.x.set n 128 = X
  have hXl : X.length = 256 := by rw [← hX, List.length_set]; exact hx
  have hsp : X = X.take (N - 9) ++ (X.drop (N - 9)).take 1 ++ (X.drop (N - 8)).take 8 ++ X.drop N := by
    have e1 : X = X.take (N - 9) ++ X.drop (N - 9) := (List.take_append_drop _ _).symm
    have e2 : X.drop (N - 9) = (X.drop (N - 9)).take 1 ++ X.drop (N - 8) := by
      conv => lhs; rw [← List.take_append_drop 1 (X.drop (N - 9))]
      rw [List.drop_drop]; congr 2; omega
    have e3 : X.drop (N - 8) = (X.drop (N - 8)).take 8 ++ X.drop N := by
      conv => lhs; rw [← List.take_append_drop 8 (X.drop (N - 8))]
      rw [List.drop_drop]; congr 2; omega
    conv => lhs; rw [e1, e2, e3]
    simp only [List.append_assoc]
  have w2 : ∀ v, wr X (N - 9) v = .ok (X.take (N - 9) ++ [v] ++ (X.drop (N - 8)).take 8 ++ X.drop N) := by
    intro v
    rw [wr_ok (by omega)]
    congr 1
    conv => lhs; rw [hsp]
    rw [List.append_assoc, List.append_assoc, List.set_append_right _ _ (by rw [List.length_take]; omega), List.length_take]
    have e4 : (X.drop (N - 9)).take 1 = [X[N - 9]'(by omega)] := by
      rw [List.drop_eq_getElem_cons (by omega)]; rfl
    rw [e4, show N - 9 - min (N - 9) X.length = 0 by omega]
    simp only [List.singleton_append, List.set_cons_zero, List.append_assoc, List.cons_append]
  rw [w2]
  simp only [ok_bindE]
  rw [ts64_spec (by rw [List.length_append, List.length_take, List.length_singleton]; omega)
    (by rw [List.length_take, List.length_drop]; omega)]
  simp only [ok_bindE]
  have r1 := rdN_mid (A := []) (M := X.take (N - 9) ++ [(c.b >>> 61).setWidth 8] ++ bytesBE (c.b <<< 3)) (B := X.drop N)
    (i := 0) (n := N) rfl (by rw [List.length_append, List.length_append, List.length_take, bytesBE_length, List.length_singleton]; omega)
  rw [List.nil_append] at r1
  rw [r1]
  simp only [ok_bindE]
  rw [hh.2]
  simp only [ok_bindE, pure_eq_ok, List.append_assoc, List.cons_append, List.nil_append]

theorem init_gen {c : Ctx} (h : c.h.length = 64) (hx : c.x.length = 256) : init c = .ok sha512_init := by
  unfold init
  have w1 := wrN_mid (A := []) (M := c.h) (B := []) (x := iv) (i := 0) rfl (by rw [h]; rfl)
  have w2 := wrN_mid (A := []) (M := c.x) (B := []) (x := List.replicate 256 0) (i := 0) rfl (by rw [hx, List.length_replicate])
  rw [List.nil_append, List.append_nil] at w1 w2
  rw [w1]
  simp only [ok_bindE]
  rw [w2]
  simp only [ok_bindE, List.nil_append, List.append_nil]
  rfl

/-- The context after what was seen. -/
def Rep (c : Ctx) (s : Seen) : Prop :=
  c.h = digest (process Sha512.Spec.init s.hashed) ∧ c.x = s.buf ∧ c.x.length = 256 ∧ c.b.toNat = s.total ∧ s.hashed.length % 128 = 0

theorem rep_start : Rep sha512_init start :=
  ⟨iv_eq, rfl, List.length_replicate, rfl, rfl⟩

theorem step_spec {c : Ctx} {s : Seen} (h : Rep c s) (o : Op) : ∃ c', step c o = .ok c' ∧ Rep c' (see s o) := by
  obtain ⟨hh, hb, hx, ht, hl⟩ := h
  have hL : Loads c.h (process Sha512.Spec.init s.hashed) := hh ▸ loads_digest _
  cases o with
  | init => exact ⟨_, init_gen hL.1 hx, rep_start⟩
  | update b =>
    refine ⟨_, update_gen hL hx b, ?_, ?_, ?_, ?_, ?_⟩
    · show digest _ = digest _
      rw [← process_append _ hl]; rfl
    · show rest b ++ c.x.drop _ = _
      rw [hb]; rfl
    · show (rest b ++ c.x.drop (rest b).length).length = 256
      rw [List.length_append, List.length_drop, rest_length]; omega
    · show (c.b + BitVec.ofNat 64 b.length).toNat = (s.total + b.length) % 2 ^ 64
      rw [BitVec.toNat_add, BitVec.toNat_ofNat, ht]; omega
    · show (s.hashed ++ whole b).length % 128 = 0
      rw [List.length_append]
      unfold whole
      rw [List.length_take]; omega
  | fin =>
    have e := end_gen hL hx s.hashed
    rw [ht, hb] at e
    have hs : (⟨s.hashed, s.buf, s.total⟩ : Seen) = s := rfl
    rw [hs] at e
    have hbl : s.buf.length = 256 := by rw [← hb]; exact hx
    have hcl := closing_length s hbl
    have hle := tailSize_le s.total
    refine ⟨_, e, ?_, rfl, ?_, ht, ?_⟩
    · show digest _ = digest _
      rw [← process_append _ hl]; rfl
    · show (closing s ++ s.buf.drop (tailSize s.total)).length = 256
      rw [List.length_append, List.length_drop, hcl]; omega
    · show (s.hashed ++ closing s).length % 128 = 0
      rw [List.length_append, hcl]
      unfold tailSize
      split <;> omega

theorem hist_spec : ∀ (os : List Op) {c : Ctx} {s : Seen}, Rep c s → ∃ c', hist c os = .ok c' ∧ Rep c' (os.foldl see s)
  | [], c, s, h => ⟨c, rfl, h⟩
  | o :: os, c, s, h => by
    obtain ⟨c1, e1, h1⟩ := step_spec h o
    obtain ⟨c2, e2, h2⟩ := hist_spec os h1
    refine ⟨c2, ?_, h2⟩
    unfold hist
    rw [e1]
    exact e2

theorem hist_append (c : Ctx) : ∀ (as bs : List Op), hist c (as ++ bs) = (hist c as >>= fun c => hist c bs) := by
  intro as
  induction as generalizing c with
  | nil => intro bs; rfl
  | cons a as ih =>
    intro bs
    show (step c a >>= fun c => hist c (as ++ bs)) = ((step c a >>= fun c => hist c as) >>= fun c => hist c bs)
    cases step c a with
    | error e => rfl
    | ok d => exact ih d bs

theorem step_safe {c : Ctx} (h : c.h.length = 64) (hx : c.x.length = 256) (o : Op) :
    ∃ c', step c o = .ok c' ∧ c'.h.length = 64 ∧ c'.x.length = 256 := by
  obtain ⟨r, hr⟩ := loads_any h
  cases o with
  | init => exact ⟨_, init_gen h hx, rfl, List.length_replicate⟩
  | update b =>
    refine ⟨_, update_gen hr hx b, digest_length _, ?_⟩
    show (rest b ++ c.x.drop (rest b).length).length = 256
    rw [List.length_append, List.length_drop, rest_length]; omega
  | fin =>
    refine ⟨_, end_gen hr hx [], digest_length _, ?_⟩
    show (closing ⟨[], c.x, c.b.toNat⟩ ++ c.x.drop (tailSize c.b.toNat)).length = 256
    have hle := tailSize_le c.b.toNat
    rw [List.length_append, List.length_drop, closing_length _ hx]
    show tailSize c.b.toNat + _ = _
    omega

theorem hist_safe : ∀ (os : List Op) {c : Ctx}, c.h.length = 64 → c.x.length = 256 →
    ∃ c', hist c os = .ok c' ∧ c'.h.length = 64 ∧ c'.x.length = 256
  | [], c, h, hx => ⟨c, rfl, h, hx⟩
  | o :: os, c, h, hx => by
    obtain ⟨c1, e1, h1, hx1⟩ := step_safe h hx o
    obtain ⟨c2, e2, h2⟩ := hist_safe os h1 hx1
    refine ⟨c2, ?_, h2⟩
    unfold hist
    rw [e1]
    exact e2

theorem hist_any (pre ops : List Op) {c : Ctx} (h : c.h.length = 64) (hx : c.x.length = 256) :
    ∃ c', hist c (pre ++ .init :: ops) = .ok c' ∧ Rep c' (ops.foldl see start) := by
  obtain ⟨c1, e1, h1, hx1⟩ := hist_safe pre h hx
  obtain ⟨c2, e2, h2⟩ := hist_spec ops rep_start
  refine ⟨c2, ?_, h2⟩
  rw [hist_append, e1]
  show hist c1 (.init :: ops) = _
  unfold hist
  rw [show step c1 .init = .ok sha512_init from init_gen h1 hx1]
  exact e2

/-- Whole blocks only. -/
theorem see_wholes : ∀ (chunks : List (List Byte)) (s : Seen), (∀ x ∈ chunks, x.length % 128 = 0) → s.total + chunks.flatten.length < 2 ^ 64 →
    (chunks.map Op.update).foldl see s = ⟨s.hashed ++ chunks.flatten, s.buf, s.total + chunks.flatten.length⟩
  | [], s, _, _ => by simp
  | x :: xs, s, h, hl => by
    have hx := h x (by simp)
    have hw : whole x = x := by unfold whole; rw [show 128 * (x.length / 128) = x.length by omega, List.take_length]
    have hr : rest x = [] := List.eq_nil_of_length_eq_zero (by rw [rest_length]; exact hx)
    rw [List.flatten_cons, List.length_append] at hl
    rw [List.map_cons, List.foldl_cons]
    have e : see s (.update x) = ⟨s.hashed ++ x, s.buf, s.total + x.length⟩ := by
      show Seen.mk _ _ _ = _
      rw [hw, hr, Nat.mod_eq_of_lt (by omega)]; rfl
    rw [e, see_wholes xs _ (fun y hy => h y (by simp [hy])) (by show s.total + x.length + _ < _; omega)]
    simp only [List.flatten_cons, List.length_append, List.append_assoc, Nat.add_assoc]

theorem len16 {n : Nat} (h : n < 2 ^ 64) :
    ((List.range 16).map fun j => (BitVec.ofNat 128 (8 * n)).extractLsb' (8 * (15 - j)) 8) =
      List.replicate 7 0 ++ (List.range 9).map fun j => (BitVec.ofNat 128 (8 * n)).extractLsb' (8 * (8 - j)) 8 := by
  rw [len_bytes9 h, len_bytes h]

/-- The closing blocks after regular data are the end of the padded message. -/
theorem closing_regular (m : List Byte) (hm : m.length < 2 ^ 64) (hd : List Byte) :
    closing ⟨hd, rest m ++ (List.replicate 256 (0 : Byte)).drop (rest m).length, m.length⟩ = lastPart m := by
  unfold closing lastPart pad
  simp only
  rw [len16 hm]
  generalize hL : ((List.range 9).map fun j => (BitVec.ofNat 128 (8 * m.length)).extractLsb' (8 * (8 - j)) 8) = L
  have hrl := rest_length m
  have hlen : (128 * (m.length / 128)) ≤ m.length := by omega
  rw [List.append_assoc, List.append_assoc, List.drop_append_of_le_length hlen]
  rw [show m.drop (128 * (m.length / 128)) = rest m from rfl]
  generalize rest m = R at hrl ⊢
  rw [List.drop_replicate, hrl]
  generalize hn : m.length % 128 = n at *
  have hn128 : n < 128 := by omega
  have hset : (R ++ List.replicate (256 - n) (0 : Byte)).set n 0x80 = R ++ 0x80 :: List.replicate (255 - n) 0 := by
    rw [List.set_append_right _ _ (by omega), hrl, Nat.sub_self, show 256 - n = (255 - n) + 1 by omega, List.replicate_succ]
    rfl
  rw [hset]
  have hT : tailSize m.length = if n < 112 then 128 else 256 := by unfold tailSize; rw [hn]
  have hz : (239 - n) % 128 = tailSize m.length - 17 - n := by rw [hT]; split <;> omega
  have hle : n + 1 ≤ tailSize m.length - 9 := by rw [hT]; split <;> omega
  have hle2 : tailSize m.length ≤ 256 := (tailSize_le _).1
  have hle3 : n + 17 ≤ tailSize m.length := by rw [hT]; split <;> omega
  generalize tailSize m.length = N at *
  rw [hz, List.take_append, hrl, List.take_of_length_le (by omega), show N - 9 - n = (N - 10 - n) + 1 by omega, List.take_succ_cons,
    List.take_replicate, show min (N - 10 - n) (255 - n) = (N - 17 - n) + 7 by omega, ← List.replicate_append_replicate]
  simp only [List.append_assoc, List.cons_append, List.nil_append]

/-- What was seen after regular data and an end. -/
theorem see_regular (chunks : List (List Byte)) (last : List Byte) (h : ∀ x ∈ chunks, x.length % 128 = 0)
    (hl : (chunks.flatten ++ last).length < 2 ^ 64) :
    (chunks.map Op.update ++ [Op.update last]).foldl see start = ⟨whole (chunks.flatten ++ last),
      rest (chunks.flatten ++ last) ++ (List.replicate 256 (0 : Byte)).drop (rest (chunks.flatten ++ last)).length, (chunks.flatten ++ last).length⟩ := by
  rw [List.length_append] at hl
  rw [List.foldl_append, see_wholes chunks start h (by show 0 + _ < _; omega)]
  have hf : chunks.flatten.length % 128 = 0 := by
    have := wholes_length chunks
    have e : chunks.map whole = chunks := by
      conv => rhs; rw [← List.map_id chunks]
      apply List.map_congr_left
      intro x hx
      have := h x hx
      show whole x = x
      unfold whole; rw [show 128 * (x.length / 128) = x.length by omega, List.take_length]
    rwa [e] at this
  have hd : 128 * ((chunks.flatten ++ last).length / 128) = chunks.flatten.length + 128 * (last.length / 128) := by
    rw [List.length_append]; omega
  have hw : whole (chunks.flatten ++ last) = chunks.flatten ++ whole last := by
    unfold whole
    rw [hd, List.take_append, Nat.add_sub_cancel_left, List.take_of_length_le (by omega)]
  have hr : rest (chunks.flatten ++ last) = rest last := by
    unfold rest
    rw [hd, List.drop_append, Nat.add_sub_cancel_left, List.drop_eq_nil_of_le (by omega), List.nil_append]
  rw [hw, hr]
  show Seen.mk _ _ _ = _
  show Seen.mk _ _ ((0 + chunks.flatten.length + last.length) % 2 ^ 64) = _
  rw [Nat.mod_eq_of_lt (by omega), List.length_append, Nat.zero_add]
  rfl

theorem pad_split (m : List Byte) : whole m ++ lastPart m = pad m := by
  unfold lastPart
  have : whole m = (pad m).take (128 * (m.length / 128)) := by
    unfold whole pad
    rw [List.append_assoc, List.append_assoc, List.take_append_of_le_length (by omega)]
  rw [this, List.take_append_drop]

/-- Repeated ends hash the same blocks again. -/
theorem closing_again (s : Seen) (h : s.buf.length = 256) : closing (see s .fin) = closing s := by
  have hcl := closing_length s h
  have hT : s.total % 128 + 17 ≤ tailSize s.total := by unfold tailSize; split <;> omega
  have hle := tailSize_le s.total
  show (((closing s ++ s.buf.drop (tailSize s.total)).set (s.total % 128) 0x80).take (tailSize s.total - 9)) ++ _ = _
  show _ = ((s.buf.set (s.total % 128) 0x80).take (tailSize s.total - 9)) ++ _
  congr 1
  apply List.ext_getElem
  · rw [List.length_take, List.length_take, List.length_set, List.length_set, List.length_append, List.length_drop, hcl]; omega
  · intro i h1 h2
    rw [List.length_take] at h1
    rw [List.getElem_take, List.getElem_take, List.getElem_set, List.getElem_set]
    by_cases hi : s.total % 128 = i
    · rw [if_pos hi, if_pos hi]
    · rw [if_neg hi, if_neg hi, List.getElem_append_left (by omega)]
      unfold closing
      rw [List.getElem_append_left (by rw [List.length_take, List.length_set]; omega), List.getElem_take, List.getElem_set, if_neg hi]

theorem see_fins : ∀ (k : Nat) (s : Seen), s.buf.length = 256 →
    ((List.replicate k Op.fin).foldl see s).hashed = s.hashed ++ (List.replicate k (closing s)).flatten
  | 0, s, _ => by simp
  | k + 1, s, h => by
    rw [List.replicate_succ, List.foldl_cons]
    have hb : (see s .fin).buf.length = 256 := by
      show (closing s ++ s.buf.drop (tailSize s.total)).length = 256
      have hle := tailSize_le s.total
      rw [List.length_append, List.length_drop, closing_length s h]; omega
    rw [see_fins k _ hb, closing_again s h, List.replicate_succ, List.flatten_cons, ← List.append_assoc]
    rfl

theorem fins_spec (pre : List Op) (chunks : List (List Byte)) (last : List Byte) (k : Nat) {c : Ctx} (hh : c.h.length = 64) (hx : c.x.length = 256)
    (h : ∀ x ∈ chunks, x.length % 128 = 0) (hl : (chunks.flatten ++ last).length < 2 ^ 64) :
    ∃ c', hist c (pre ++ .init :: (chunks.map Op.update ++ [Op.update last] ++ List.replicate (k + 1) .fin)) = .ok c' ∧
      c'.h = digest (process Sha512.Spec.init (pad (chunks.flatten ++ last) ++ (List.replicate k (lastPart (chunks.flatten ++ last))).flatten)) := by
  obtain ⟨c', e, hr⟩ := hist_any pre (chunks.map Op.update ++ [Op.update last] ++ List.replicate (k + 1) .fin) hh hx
  refine ⟨c', e, ?_⟩
  rw [hr.1, List.foldl_append, see_regular chunks last h hl]
  have hrl := rest_length (chunks.flatten ++ last)
  rw [see_fins _ _ (by
    show (rest _ ++ (List.replicate 256 (0 : Byte)).drop _).length = 256
    rw [List.length_append, List.length_drop, List.length_replicate]; omega), closing_regular _ hl]
  show digest (process _ (whole (chunks.flatten ++ last) ++ _)) = _
  rw [show List.replicate (k + 1) (lastPart (chunks.flatten ++ last)) = lastPart (chunks.flatten ++ last) :: List.replicate k (lastPart (chunks.flatten ++ last)) from rfl,
    List.flatten_cons, ← List.append_assoc, pad_split]

theorem mhist_spec : ∀ (os : List MOp) {c : Md5.Ctx} {m : List Byte}, Md5.Rep c m → MFits os →
    ∃ c', mhist c os = .ok (c', mspec m os)
  | [], c, m, _, _ => ⟨c, rfl⟩
  | .init :: os, c, m, h, hf => by
    have hb : c.buf.length = 64 := by
      obtain ⟨full, rest, junk, _, _, _, _, hb, hl, _⟩ := h
      rw [hb, List.length_append]; exact hl
    exact mhist_spec os (Md5.init_rep hb) (fun j d hm => hf j d (by simp [hm]))
  | .update d :: os, c, m, h, hf => by
    obtain ⟨c1, e1, h1⟩ := Md5.update_spec h d
    obtain ⟨c2, e2⟩ := mhist_spec os h1 (fun j d hm => hf j d (by simp [hm]))
    refine ⟨c2, ?_⟩
    unfold mhist
    rw [e1]
    exact e2
  | .fin junk dst :: os, c, m, h, hf => by
    obtain ⟨hj, hd⟩ := hf junk dst (by simp)
    obtain ⟨c2, e2⟩ := mhist_spec os h (fun j d hm => hf j d (by simp [hm]))
    refine ⟨c2, ?_⟩
    unfold mhist
    rw [Md5.end_spec h hj hd]
    simp only [ok_bindE]
    rw [e2]
    rfl

end Ulz.Shactx
