import Verif.Model.Saber
import Verif.Spec.Saber
import Verif.Proofs.Rc4
import Verif.Proofs.Hex
import Verif.Proofs.Mem
set_option linter.unusedSimpArgs false
set_option linter.unusedVariables false
namespace Ulz.Saber
open Rc4 Rc4.Spec

theorem next_mod (x n : Nat) (hn : 0 < n) :
    (if x % n + 1 = n then 0 else x % n + 1) = (x + 1) % n := by
  rw [Nat.add_mod]
  by_cases h1 : n = 1
  · simp [h1, Nat.mod_one]
  · rw [Nat.mod_eq_of_lt (a := 1) (by omega)]
    have : x % n < n := Nat.mod_lt _ hn
    split
    · rename_i h; rw [h]; simp
    · rw [Nat.mod_eq_of_lt (a := x % n + 1) (by omega)]

/-- The mixing loop looks at the bytes `key[x mod keylen]` only. -/
theorem mix_same (k1 k2 : List Byte) (h1 : 0 < k1.length) (h2 : 0 < k2.length)
    (h : ∀ i < 256, k1[i % k1.length]? = k2[i % k2.length]?) : ∀ (n x y : Nat) (box : List Byte), x + n ≤ 256 →
    mix k1 n x y (x % k1.length) box = mix k2 n x y (x % k2.length) box
  | 0, x, y, box, hx => rfl
  | n + 1, x, y, box, hx => by
    have e : rd k1 (x % k1.length) = rd k2 (x % k2.length) := by simp only [rd, h x (by omega)]
    simp only [mix, e, next_mod x _ h1, next_mod x _ h2]
    cases rd box x with
    | error u => rfl
    | ok b =>
      cases rd k2 (x % k2.length) with
      | error u => rfl
      | ok c =>
        simp only [ok_bind]
        cases swapAt box x ((y + b.toNat + c.toNat) % 256) with
        | error u => rfl
        | ok box' =>
          simp only [ok_bind]
          exact mix_same k1 k2 h1 h2 h n (x + 1) _ box' (by omega)

theorem rounds_succ (key : List Byte) (k y : Nat) (box : List Byte) {N : Nat} (hN : N = 256) :
    rounds key (k + 1) y box = mix key N 0 y 0 box >>= fun p => rounds key k p.2 p.1 := by subst hN; rw [rounds]

theorem rounds_zero (key : List Byte) (y : Nat) (box : List Byte) : rounds key 0 y box = .ok box := by rw [rounds]; rfl



theorem rounds_same (k1 k2 : List Byte) (h1 : 0 < k1.length) (h2 : 0 < k2.length)
    (h : ∀ i < 256, k1[i % k1.length]? = k2[i % k2.length]?) (k : Nat) : ∀ (y : Nat) (box : List Byte),
    rounds k1 k y box = rounds k2 k y box := by
  induction k with
  | zero => intro y box; rw [rounds_zero, rounds_zero]
  | succ k ih =>
    intro y box
    obtain ⟨N, hN⟩ : ∃ N, N = 256 := ⟨_, rfl⟩
    have := mix_same k1 k2 h1 h2 h N 0 y box (by omega)
    rw [Nat.zero_mod, Nat.zero_mod] at this
    rw [rounds_succ k1 k y box hN, rounds_succ k2 k y box hN, this]
    cases mix k2 N 0 y 0 box with
    | error u => rw [error_bind, error_bind]
    | ok p => rw [ok_bind, ok_bind]; exact ih p.2 p.1

theorem schedule_mix (key : List Byte) : ∀ (n x y z : Nat) (box : List Byte),
    schedule key n x y z box = (mix key n x y z box).map Prod.fst
  | 0, x, y, z, box => rfl
  | n + 1, x, y, z, box => by
    simp only [schedule, mix]
    cases rd box x with
    | error u => rfl
    | ok b =>
      cases rd key z with
      | error u => rfl
      | ok c =>
        simp only [ok_bind]
        cases swapAt box x ((y + b.toNat + c.toNat) % 256) with
        | error u => rfl
        | ok box' => simp only [ok_bind]; exact schedule_mix key n (x + 1) _ _ box'

theorem rounds_one (key box : List Byte) {N : Nat} (hN : N = 256) : rounds key 1 0 box = schedule key N 0 0 0 box := by
  rw [schedule_mix, rounds_succ key 0 0 box hN]
  cases mix key N 0 0 0 box with
  | error u => rfl
  | ok p => rw [ok_bind, rounds_zero]; rfl

theorem rc4_n_one_eq (dst src : List Byte) (len : Nat) (key : List Byte) :
    rc4_n dst src len key 1 = rc4 dst src len key := by
  unfold rc4_n rc4 initBox
  rw [rounds_one key _ rfl]

theorem mix_rep (key : List Byte) (hk : 0 < key.length) (st : (Byte → Byte) × Byte) : ∀ (n x : Nat) (box : List Byte),
    x + n ≤ 256 → Rep box (Spec.mix key hk st x).1 →
    ∃ box', mix key n x (Spec.mix key hk st x).2.toNat (x % key.length) box =
        .ok (box', (Spec.mix key hk st (x + n)).2.toNat) ∧ Rep box' (Spec.mix key hk st (x + n)).1
  | 0, x, box, hx, hr => ⟨box, rfl, hr⟩
  | n + 1, x, box, hx, hr => by
    have hxn : (BitVec.ofNat 8 x).toNat = x := by simp; omega
    have hz : x % key.length < key.length := Nat.mod_lt _ hk
    simp only [mix]
    rw [hr.rd (BitVec.ofNat 8 x) hxn.symm, rd_ok hz]
    simp only [ok_bind]
    rw [← toNat_add3]
    obtain ⟨box', hs, hrep⟩ := hr.swap (BitVec.ofNat 8 x)
      ((Spec.mix key hk st x).2 + (Spec.mix key hk st x).1 (BitVec.ofNat 8 x) + key[x % key.length])
    rw [hxn] at hs
    rw [hs]
    simp only [ok_bind]
    rw [next_mod x _ hk]
    obtain ⟨b, hb, hrb⟩ := mix_rep key hk st n (x + 1) box' (by omega) hrep
    rw [show x + (n + 1) = x + 1 + n by omega]
    exact ⟨b, hb, hrb⟩

theorem mixed_succ (key : List Byte) (hk : 0 < key.length) (r : Nat) {N : Nat} (hN : N = 256) :
    Spec.mix key hk (Spec.mixed key hk r) N = Spec.mixed key hk (r + 1) := by subst hN; rw [Spec.mixed]

theorem rounds_rep (key : List Byte) (hk : 0 < key.length) (k : Nat) : ∀ (r : Nat) (box : List Byte),
    Rep box (Spec.mixed key hk r).1 →
    ∃ box', rounds key k (Spec.mixed key hk r).2.toNat box = .ok box' ∧ Rep box' (Spec.mixed key hk (r + k)).1 := by
  induction k with
  | zero => intro r box hr; exact ⟨box, rounds_zero .., hr⟩
  | succ k ih =>
    intro r box hr
    obtain ⟨N, hN⟩ : ∃ N, N = 256 := ⟨_, rfl⟩
    have e : (Spec.mix key hk (Spec.mixed key hk r) 0) = Spec.mixed key hk r := by rw [Spec.mix]
    obtain ⟨b, hb, hrb⟩ := mix_rep key hk (Spec.mixed key hk r) N 0 box (by omega) (by rw [e]; exact hr)
    rw [Nat.zero_mod, Nat.zero_add, e, mixed_succ key hk r hN] at hb
    rw [Nat.zero_add, mixed_succ key hk r hN] at hrb
    rw [rounds_succ key k _ box hN, hb, ok_bind]
    dsimp only
    obtain ⟨c, hc, hrc⟩ := ih (r + 1) b hrb
    rw [show r + (k + 1) = r + 1 + k by omega]
    exact ⟨c, hc, hrc⟩

/-- `rc4_n` stores `src` xor the stream in front of `dst`. -/
theorem rc4_n_put (dst src key : List Byte) (r : Nat) (hk : 0 < key.length) (hd : src.length ≤ dst.length) :
    rc4_n dst src src.length key r =
      .ok (put dst 0 (List.zipWith (· ^^^ ·) src (Spec.stream key hk r src.length))) := by
  obtain ⟨box, hb, hrep⟩ := rounds_rep key hk r 0 _ rep_id
  have := crypt_put dst src src.length 0 0 0 box _ [] rfl (by omega) (by omega) hrep
  unfold rc4_n
  have e : (Spec.mixed key hk 0).2.toNat = 0 := rfl
  rw [e] at hb
  rw [hb, ok_bind]
  rw [Nat.zero_add] at this
  simpa [Spec.stream] using this

theorem stream_length (key : List Byte) (hk : 0 < key.length) (r n : Nat) : (Spec.stream key hk r n).length = n :=
  prga_length ..

theorem decKey_eq (iv body key kj : List Byte) (junk : Nat → Byte) (hi : iv.length = 10) (h0 : 0 ∉ key) (hl : key.length < 256) :
    decKey (iv ++ body) (key ++ 0 :: kj) junk = .ok (some (key ++ iv)) := by
  unfold decKey
  rw [if_neg (by simp; omega)]
  have e1 : rdN (iv ++ body) 0 10 = .ok iv := by
    simpa using rdN_mid (A := []) (M := iv) (B := body) (i := 0) (n := 10) rfl (by omega)
  have e2 : rdN (key ++ 0 :: kj) 0 key.length = .ok key := by
    simpa using rdN_mid (A := []) (M := key) (B := 0 :: kj) (i := 0) (n := key.length) rfl rfl
  rw [e1, ok_bind, Hex.strlen_cstr _ _ h0, ok_bind, if_neg (by omega)]
  generalize hd : (List.range (key.length + 10)).map junk = d
  have hdl : d.length = key.length + 10 := by rw [← hd]; simp
  simp only [e2, ok_bind]
  have hsplit : d = [] ++ d.take key.length ++ d.drop key.length := by simp
  have hw : wrN d 0 key = .ok (key ++ d.drop key.length) := by
    have := wrN_mid (A := []) (M := d.take key.length) (B := d.drop key.length) (x := key) (i := 0) rfl (by simp; omega)
    rw [← hsplit] at this
    simpa using this
  have hw2 : wrN (key ++ d.drop key.length) key.length iv = .ok (key ++ iv) := by
    have := wrN_mid (A := key) (M := d.drop key.length) (B := []) (x := iv) (i := key.length) rfl (by simp; omega)
    simpa using this
  rw [hw, ok_bind, hw2, ok_bind]
  rfl

theorem decKey_none (cmsg key kj : List Byte) (junk : Nat → Byte) (h0 : 0 ∉ key)
    (h : cmsg.length < 10 ∨ 256 ≤ key.length) : decKey cmsg (key ++ 0 :: kj) junk = .ok none := by
  unfold decKey
  by_cases h1 : cmsg.length < 10
  · rw [if_pos h1]; rfl
  · have h2 : 256 ≤ key.length := by omega
    rw [if_neg h1]
    have e1 : rdN cmsg 0 10 = .ok (cmsg.take 10) := by unfold rdN; rw [if_pos (by omega)]; simp
    rw [e1, ok_bind, Hex.strlen_cstr _ _ h0, ok_bind, if_pos h2]; rfl

theorem dec2_eq (out iv body key kj : List Byte) (r : Nat) (junk : Nat → Byte) (hi : iv.length = 10) (h0 : 0 ∉ key)
    (hl : key.length < 256) : ciphersaber_2_dec out (iv ++ body) (key ++ 0 :: kj) r junk =
      (do pure (some (← rc4_n out body body.length (key ++ iv) r))) := by
  unfold ciphersaber_2_dec
  rw [decKey_eq iv body key kj junk hi h0 hl, ok_bind]
  have e1 : (iv ++ body).drop 10 = body := by rw [← hi]; simp
  have e2 : (iv ++ body).length - 10 = body.length := by simp; omega
  simp only [e1, e2]

theorem dec1_eq (out cmsg key : List Byte) (junk : Nat → Byte) :
    ciphersaber_1_dec out cmsg key junk = ciphersaber_2_dec out cmsg key 1 junk := by
  unfold ciphersaber_1_dec ciphersaber_2_dec
  simp only [rc4_n_one_eq]

/-- A cipher whose output is longer than the destination. -/
theorem crypt_oob (src : List Byte) : ∀ (n x : Nat) (i j : Byte) (box : List Byte) (S) (d : List Byte),
    x ≤ d.length → d.length < x + n → x + n ≤ src.length → Rep box S →
    crypt src n x i.toNat j.toNat box d = .error .oobWrite
  | 0, x, i, j, box, S, d, h1, h2, h3, hr => by omega
  | n + 1, x, i, j, box, S, d, h1, h2, h3, hr => by
    obtain ⟨box', hst, hrep⟩ := step_rep hr i j
    simp only [crypt, hst, ok_bind]
    rw [rd_ok (by omega : x < src.length)]
    simp only [ok_bind]
    by_cases h : x < d.length
    · rw [wr_ok h, ok_bind]
      exact crypt_oob src n (x + 1) (i + 1) (j + S (i + 1)) box' _ _ (by simp; omega) (by simp; omega) (by omega) hrep
    · unfold wr
      rw [if_neg h]; rfl

/-- A destination as long as the message is overwritten completely. -/
theorem rc4_n_full (d1 d2 src key : List Byte) (r : Nat) (hk : 0 < key.length) (h1 : d1.length = src.length)
    (h2 : d2.length = src.length) : rc4_n d1 src src.length key r = rc4_n d2 src src.length key r := by
  rw [rc4_n_put d1 src key r hk (by omega), rc4_n_put d2 src key r hk (by omega), put_zero, put_zero]
  have e : (List.zipWith (· ^^^ ·) src (Spec.stream key hk r src.length)).length = src.length := by
    simp [stream_length]
  rw [e, List.drop_eq_nil_of_le (by omega), List.drop_eq_nil_of_le (by omega)]

/-- The outcome of a self-test does not depend on what the arrays contain at first. -/
theorem selftest_any (hmsg plain : List Byte) (key : List Byte) (r : Nat) (h0 : 0 ∉ key) (hl : key.length < 256) (h00 : 0 ∉ hmsg)
    (he : hmsg.length % 2 = 0) (h20 : 20 ≤ hmsg.length) {bs : List Byte} (hb : Hex.pairs hmsg = some bs)
    (hbl : bs.length = hmsg.length / 2)
    (hv : rc4_n (List.replicate (bs.length - 10) 0) (bs.drop 10) (bs.length - 10) (key ++ bs.take 10) r = .ok plain)
    (dec : List Byte → List Byte → C (Option (List Byte))) (junk : Nat → Byte)
    (hd : ∀ o c, dec o c = ciphersaber_2_dec o c (key ++ [0]) r junk) :
    selftest hmsg plain dec junk = .ok true := by
  unfold selftest
  generalize ho : (List.range (hmsg.length / 2)).map junk = o
  generalize hp : (List.range (hmsg.length / 2 - 10)).map junk = p
  have hol : o.length = hmsg.length / 2 := by rw [← ho]; simp
  have hpl : p.length = hmsg.length / 2 - 10 := by rw [← hp]; simp
  have e1 : Hex.hex2raw (hmsg ++ [0]) o = .ok (bs, hmsg.length / 2) := by
    unfold Hex.hex2raw
    rw [Hex.strlen_cstr _ _ h00]
    simp only [ok_bind]
    rw [if_neg (by omega)]
    have := Hex.hex2rawLoop_put o [] hmsg [] 0 h00 he rfl (by omega)
    rw [put_nil, hb] at this
    rw [this]
    simp only [ok_bind, List.nil_append, put_zero]
    rw [List.drop_eq_nil_of_le (by omega), List.append_nil]
    rfl
  have hi : (bs.take 10).length = 10 := by simp; omega
  have hbd : (bs.drop 10).length = bs.length - 10 := by simp
  rw [e1, ok_bind]
  dsimp only
  rw [if_neg (by simp), hd]
  have e2 := dec2_eq p (bs.take 10) (bs.drop 10) key [] r junk hi h0 hl
  rw [List.take_append_drop] at e2
  rw [e2, rc4_n_full p (List.replicate (bs.length - 10) 0) _ _ _ (Spec.key_pos hi) (by omega) (by simp), hbd, hv]
  simp only [ok_bind, pure_eq_ok]
  rw [rdN_all rfl, ok_bind]
  simp

/-- A box as one number, so that the kernel can compute with it quickly. -/
def enc : List Byte → Nat
  | [] => 0
  | b :: bs => b.toNat + 256 * enc bs

theorem enc_get : ∀ (l : List Byte) (i : Nat) (h : i < l.length), enc l / 256 ^ i % 256 = l[i].toNat
  | b :: bs, 0, h => by
    have := b.isLt
    simp only [enc, Nat.pow_zero, Nat.div_one, List.getElem_cons_zero]; omega
  | b :: bs, i + 1, h => by
    have := b.isLt
    simp only [enc, List.getElem_cons_succ]
    rw [Nat.pow_succ, Nat.mul_comm (256 ^ i), ← Nat.div_div_eq_div_mul, show (b.toNat + 256 * enc bs) / 256 = enc bs by omega]
    exact enc_get bs i (by simpa using h)

theorem enc_set : ∀ (l : List Byte) (i : Nat) (h : i < l.length) (v : Byte),
    enc (l.set i v) + l[i].toNat * 256 ^ i = enc l + v.toNat * 256 ^ i
  | b :: bs, 0, h, v => by simp [enc]; omega
  | b :: bs, i + 1, h, v => by
    have := enc_set bs i (by simpa using h) v
    simp only [enc, List.set_cons_succ, List.getElem_cons_succ, Nat.pow_succ]
    have hi : i < bs.length := by simpa using h
    have e1 : bs[i].toNat * (256 ^ i * 256) = 256 * (bs[i].toNat * 256 ^ i) := by
      rw [← Nat.mul_assoc, Nat.mul_comm]
    have e2 : v.toNat * (256 ^ i * 256) = 256 * (v.toNat * 256 ^ i) := by
      rw [← Nat.mul_assoc, Nat.mul_comm]
    rw [e1, e2]
    omega

theorem enc_inj : ∀ (a b : List Byte), a.length = b.length → enc a = enc b → a = b
  | [], [], _, _ => rfl
  | x :: a, y :: b, hl, h => by
    have := x.isLt; have := y.isLt
    simp only [enc] at h
    have e1 : x.toNat = y.toNat := by omega
    have e2 : enc a = enc b := by omega
    rw [BitVec.eq_of_toNat_eq e1, enc_inj a b (by simpa using hl) e2]

/-- `mix` on the encoded box. -/
def mixN (key : List Byte) : (n : Nat) → (x y z : Nat) → Nat → Nat × Nat
  | 0, _, y, _, B => (B, y)
  | n + 1, x, y, z, B =>
    let bx := B / 256 ^ x % 256
    let y := (y + bx + (key[z]?.getD 0).toNat) % 256
    let by' := B / 256 ^ y % 256
    let B := (B + by' * 256 ^ x + bx * 256 ^ y) - (bx * 256 ^ x + by' * 256 ^ y)
    let z := if z + 1 = key.length then 0 else z + 1
    mixN key n (x + 1) y z B

theorem swapAt_enc (box : List Byte) (x y : Nat) (hx : x < box.length) (hy : y < box.length) :
    ∃ box', swapAt box x y = .ok box' ∧ box'.length = box.length ∧
      enc box' = (enc box + box[y].toNat * 256 ^ x + box[x].toNat * 256 ^ y) - (box[x].toNat * 256 ^ x + box[y].toNat * 256 ^ y) := by
  refine ⟨(box.set x box[y]).set y box[x], ?_, by simp, ?_⟩
  · unfold swapAt
    rw [rd_ok hx, ok_bind, rd_ok hy, ok_bind, wr_ok hx, ok_bind, wr_ok (by simpa using hy)]
  · have e1 := enc_set box x hx box[y]
    have e2 := enc_set (box.set x box[y]) y (by simpa using hy) box[x]
    have e3 : ((box.set x box[y])[y]'(by simpa using hy)).toNat = box[y].toNat := by
      rw [List.getElem_set]; split
      · rename_i h; subst h; rfl
      · rfl
    rw [e3] at e2
    omega

theorem mix_enc (key : List Byte) : ∀ (n x y z : Nat) (box : List Byte), box.length = 256 → x + n ≤ 256 → z < key.length →
    ∃ box' y', mix key n x y z box = .ok (box', y') ∧ box'.length = 256 ∧ mixN key n x y z (enc box) = (enc box', y')
  | 0, x, y, z, box, hb, hx, hz => ⟨box, y, rfl, hb, rfl⟩
  | n + 1, x, y, z, box, hb, hx, hz => by
    have hy : (y + box[x].toNat + key[z].toNat) % 256 < 256 := Nat.mod_lt _ (by decide)
    obtain ⟨b1, h1, h2, h3⟩ := swapAt_enc box x ((y + box[x].toNat + key[z].toNat) % 256) (by omega) (by omega)
    have hz' : (if z + 1 = key.length then 0 else z + 1) < key.length := by split <;> omega
    obtain ⟨b2, y2, h4, h5, h6⟩ := mix_enc key n (x + 1) ((y + box[x].toNat + key[z].toNat) % 256) _ b1 (by omega) (by omega) hz'
    refine ⟨b2, y2, ?_, h5, ?_⟩
    · simp only [mix]
      rw [rd_ok (by omega : x < box.length), ok_bind, rd_ok hz, ok_bind, h1, ok_bind]
      exact h4
    · simp only [mixN]
      rw [enc_get box x (by omega), List.getElem?_eq_getElem hz, Option.getD_some, enc_get box _ (by omega), ← h3]
      exact h6

/-- `rounds` on the encoded box, with `N` for 256. -/
def roundsN (key : List Byte) (N : Nat) : (k : Nat) → (y : Nat) → Nat → Nat
  | 0, _, B => B
  | k + 1, y, B => match mixN key N 0 y 0 B with
    | (B, y) => roundsN key N k y B

theorem rounds_enc (key : List Byte) (hk : 0 < key.length) {N : Nat} (hN : N = 256) (k : Nat) : ∀ (y : Nat) (box : List Byte), box.length = 256 →
    ∃ box', rounds key k y box = .ok box' ∧ box'.length = 256 ∧ roundsN key N k y (enc box) = enc box' := by
  induction k with
  | zero => intro y box hb; exact ⟨box, rounds_zero .., hb, by rw [roundsN]⟩
  | succ k ih =>
    intro y box hb
    obtain ⟨b1, y1, h1, h2, h3⟩ := mix_enc key N 0 y 0 box hb (by omega) hk
    obtain ⟨b2, h4, h5, h6⟩ := ih y1 b1 h2
    refine ⟨b2, ?_, h5, ?_⟩
    · rw [rounds_succ key k y box hN, h1, ok_bind]; exact h4
    · rw [roundsN, h3]; exact h6

/-- The result of `rc4_n`, from the final box. -/
theorem rc4_n_via (dst src key box plain : List Byte) (len r : Nat) (hk : 0 < key.length) (hb : box.length = 256)
    (hr : roundsN key 256 r 0 (enc ((List.range 256).map (BitVec.ofNat 8))) = enc box)
    (hc : crypt src len 0 0 0 box dst = .ok plain) : rc4_n dst src len key r = .ok plain := by
  obtain ⟨b, h1, h2, h3⟩ := rounds_enc key hk rfl r 0 ((List.range 256).map (BitVec.ofNat 8)) (by simp)
  unfold rc4_n
  rw [h1, ok_bind, enc_inj b box (by omega) (by rw [← h3, hr])]
  exact hc

def box1 : List Byte := [0xb0, 0x20, 0x31, 0xa0, 0x0f, 0x70, 0x3a, 0x08, 0xba, 0x13, 0x32, 0xa1, 0x3c, 0x11, 0x52, 0x99, 0x25, 0x8d, 0x83, 0x7f, 0x3b, 0x02, 0xa5, 0x67,
    0x62, 0x35, 0x09, 0x39, 0x29, 0x96, 0xae, 0x40, 0x24, 0x3e, 0xbf, 0x9a, 0x2c, 0x88, 0x95, 0x9e, 0xe2, 0x71, 0xe6, 0xe3, 0xf7, 0x9b, 0xdd, 0x22,
    0x7d, 0x14, 0xa3, 0x5f, 0x80, 0xdb, 0x01, 0xb5, 0xc9, 0x92, 0x58, 0xcc, 0xd5, 0x50, 0x8f, 0xa4, 0x91, 0xea, 0x86, 0xf8, 0x64, 0x4d, 0xbc, 0xeb,
    0x4c, 0xd9, 0xc2, 0x23, 0x4b, 0x63, 0x7e, 0x5c, 0xf3, 0xb1, 0x34, 0xb4, 0x53, 0x8c, 0xc6, 0x2a, 0x97, 0x12, 0x5b, 0x21, 0x10, 0xc0, 0x65, 0x30,
    0x61, 0xdc, 0x72, 0x6e, 0x7c, 0x48, 0x8b, 0xda, 0x8e, 0x76, 0x51, 0x54, 0x1f, 0x1d, 0xc3, 0x44, 0xd1, 0xac, 0xc8, 0xd6, 0x5d, 0xf0, 0x3d, 0x16,
    0xce, 0x7b, 0x98, 0x07, 0xcb, 0x0a, 0x77, 0xab, 0x4f, 0xfa, 0x6d, 0x89, 0xc7, 0xa7, 0x0b, 0x68, 0xd3, 0x81, 0xd0, 0xd8, 0xb2, 0xcf, 0xf2, 0xa2,
    0x1e, 0x78, 0x41, 0x73, 0x57, 0xaa, 0x2f, 0x45, 0xf4, 0xd4, 0x2d, 0x55, 0x49, 0xde, 0xe1, 0xb9, 0x3f, 0x00, 0xb3, 0xd2, 0x6c, 0xf5, 0xca, 0x2e,
    0x60, 0x94, 0x33, 0xad, 0x18, 0xb6, 0x59, 0x74, 0x03, 0x43, 0xcd, 0x5e, 0xe7, 0x17, 0x15, 0x0d, 0xa9, 0xd7, 0xbe, 0xf1, 0xe4, 0x84, 0xfc, 0x04,
    0xe9, 0x38, 0x69, 0x1a, 0x0c, 0x87, 0xdf, 0xa6, 0xee, 0xe5, 0xf6, 0x8a, 0xef, 0x36, 0x05, 0x82, 0x9f, 0xec, 0x42, 0xaf, 0xbd, 0x93, 0xc1, 0xed,
    0x2b, 0x28, 0x75, 0x9d, 0x56, 0xf9, 0x4a, 0x1b, 0x9c, 0x0e, 0x85, 0xfb, 0xc4, 0xbb, 0xc5, 0x66, 0x6a, 0x27, 0xe8, 0xff, 0x79, 0x7a, 0xfd, 0x6f,
    0x5a, 0x26, 0x37, 0x46, 0xb8, 0x4e, 0xe0, 0x19, 0x06, 0x6b, 0xa8, 0xfe, 0x90, 0x1c, 0xb7, 0x47]

def box2 : List Byte := [0x36, 0x86, 0x15, 0x9c, 0x8c, 0x70, 0x89, 0x78, 0x5b, 0x6e, 0xac, 0x94, 0x96, 0xf7, 0xc6, 0xc1, 0x69, 0xc4, 0x0a, 0x3a, 0xe0, 0x01, 0x02, 0x13,
    0x53, 0xd4, 0x90, 0x30, 0x58, 0xe4, 0xbf, 0x98, 0x64, 0x04, 0xb4, 0xc7, 0x1d, 0xfd, 0x72, 0x35, 0x5e, 0xb8, 0x9a, 0xee, 0x54, 0x77, 0x37, 0x85,
    0x99, 0x59, 0xf9, 0x6a, 0x21, 0x1b, 0x9b, 0x22, 0x6d, 0xb2, 0xb9, 0xef, 0xaf, 0xad, 0x17, 0xd5, 0xf2, 0x42, 0x87, 0x33, 0x03, 0xe7, 0x32, 0x8e,
    0xd6, 0x5a, 0xfc, 0x84, 0x7d, 0xbd, 0x97, 0x9f, 0xa2, 0xd9, 0x29, 0xce, 0x18, 0xe2, 0x75, 0xb1, 0x68, 0x61, 0x62, 0x9d, 0x06, 0x1f, 0x45, 0xc9,
    0x8f, 0xf5, 0xec, 0xc0, 0x83, 0x08, 0x3f, 0x3c, 0x76, 0x93, 0x07, 0xcc, 0x7e, 0xf3, 0x39, 0xf0, 0x65, 0x41, 0x14, 0x79, 0xd2, 0xff, 0x26, 0x5d,
    0x56, 0xe3, 0xda, 0xc8, 0x7f, 0x3e, 0x2a, 0xe8, 0xa3, 0x28, 0xd0, 0x4a, 0xdd, 0x40, 0xc2, 0x5f, 0x5c, 0x6b, 0xb5, 0xeb, 0x31, 0xdc, 0xbe, 0x57,
    0xbb, 0x2b, 0xaa, 0xb3, 0xe6, 0x27, 0x00, 0x16, 0x50, 0x60, 0xfe, 0xb7, 0x9e, 0x1a, 0x4d, 0x23, 0x49, 0x44, 0x0f, 0xed, 0x92, 0xb6, 0xcd, 0xe1,
    0xa6, 0x71, 0x12, 0x25, 0x6f, 0xf4, 0x4c, 0xe9, 0xcb, 0xa8, 0x91, 0x05, 0xd8, 0x51, 0x0c, 0xa7, 0x1e, 0xbc, 0xea, 0x3b, 0x38, 0xc3, 0x95, 0x24,
    0x48, 0xf1, 0x73, 0x19, 0xab, 0xfb, 0x0b, 0xa1, 0xba, 0x2c, 0xdf, 0x8a, 0x80, 0x2d, 0xa4, 0xae, 0x1c, 0xcf, 0xa9, 0x34, 0x0d, 0x74, 0x0e, 0x10,
    0x67, 0xd3, 0x8b, 0xa0, 0xd7, 0x47, 0x43, 0x63, 0x81, 0x7b, 0xf8, 0x4e, 0x4f, 0x20, 0xf6, 0x55, 0x8d, 0x66, 0xca, 0x3d, 0xde, 0x6c, 0xc5, 0x46,
    0x4b, 0xdb, 0xfa, 0x88, 0xd1, 0x09, 0xb0, 0x52, 0xe5, 0x7a, 0x82, 0x2f, 0x11, 0x7c, 0x2e, 0xa5]

def msg1 : List Byte := [0x6f, 0x6d, 0x0b, 0xab, 0xf3, 0xaa, 0x67, 0x19, 0x03, 0x15, 0x30, 0xed, 0xb6, 0x77, 0xca, 0x74, 0xe0, 0x08, 0x9d, 0xd0, 0xe7, 0xb8, 0x85, 0x43,
    0x56, 0xbb, 0x14, 0x48, 0xe3, 0x7c, 0xdb, 0xef, 0xe7, 0xf3, 0xa8, 0x4f, 0x4f, 0x5f, 0xb3, 0xfd]

def msg2 : List Byte := [0xba, 0x9a, 0xb4, 0xcf, 0xfb, 0x77, 0x00, 0xe6, 0x18, 0xe3, 0x82, 0xe8, 0xfc, 0xc5, 0xab, 0x98, 0x13, 0xb1, 0xab, 0xc4, 0x36, 0xba, 0x7d, 0x5c,
    0xde, 0xa1, 0xa3, 0x1f, 0xb7, 0x2f, 0xb5, 0x76, 0x3c, 0x44, 0xcf, 0xc2, 0xac, 0x77, 0xaf, 0xee, 0x19, 0xad]

theorem vec1 : rc4_n (List.replicate 30 0) (msg1.drop 10) 30 (bytes! "asdfg" ++ msg1.take 10) 1 =
    .ok (bytes! "This is a test of CipherSaber.") :=
  rc4_n_via _ _ _ box1 _ _ _ (by decide) (by decide +kernel) (by decide +kernel) (by decide +kernel)

theorem vec2 : rc4_n (List.replicate 32 0) (msg2.drop 10) 32 (bytes! "asdfg" ++ msg2.take 10) 10 =
    .ok (bytes! "This is a test of CipherSaber-2.") :=
  rc4_n_via _ _ _ box2 _ _ _ (by decide) (by decide +kernel) (by decide +kernel) (by decide +kernel)

theorem tests_pass (junk : Nat → Byte) : ciphersaber_1_test junk = .ok true ∧ ciphersaber_2_test junk = .ok true := by
  constructor
  · unfold ciphersaber_1_test
    exact selftest_any _ _ (bytes! "asdfg") 1 (by decide) (by decide) (by decide +kernel) (by decide +kernel) (by decide +kernel)
      (bs := msg1) (by decide +kernel) (by decide +kernel) vec1 _ junk (fun o c => dec1_eq ..)
  · unfold ciphersaber_2_test
    exact selftest_any _ _ (bytes! "asdfg") 10 (by decide) (by decide) (by decide +kernel) (by decide +kernel) (by decide +kernel)
      (bs := msg2) (by decide +kernel) (by decide +kernel) vec2 _ junk (fun o c => rfl)

theorem rc4_prefix_put (dst s rest key : List Byte) (hk : 0 < key.length) (hd : s.length ≤ dst.length) :
    rc4 dst (s ++ rest) s.length key =
      .ok (put dst 0 (List.zipWith (· ^^^ ·) s (keystream key hk s.length))) := by
  obtain ⟨box, hb, hrep⟩ := initBox_rep key hk
  have := crypt_put dst (s ++ rest) s.length 0 0 0 box _ [] rfl (by simp) (by omega) hrep
  unfold rc4
  rw [hb, ok_bind]
  have e := zipWith_append_short (· ^^^ ·) s rest (prga s.length (ksa key hk 256).1 0 0) (by simp [prga_length])
  rw [put_nil, List.drop_zero, List.nil_append, e] at this
  exact this

theorem mainArg_short (s aj : List Byte) (junk : Nat → Byte) (h0 : 0 ∉ s) (hl : s.length < 2048) :
    mainArg (s ++ 0 :: aj) junk =
      .ok (List.zipWith (· ^^^ ·) s (keystream (bytes! "just for test") (by decide) s.length), true) := by
  unfold mainArg
  generalize hp : (List.range 2048).map junk = p
  have hpl : p.length = 2048 := by rw [← hp]; simp
  clear hp
  rw [Hex.strlen_cstr _ _ h0, ok_bind, rc4_prefix_put p s (0 :: aj) _ (by decide) (by omega), ok_bind]
  generalize hx : List.zipWith (· ^^^ ·) s (keystream (bytes! "just for test") (by decide) s.length) = x
  have hxl : x.length = s.length := by rw [← hx]; simp [keystream, prga_length]
  clear hx
  rw [wr_put0 hxl.symm (by omega), ok_bind]
  have e : rdN (put p 0 (x ++ [0])) 0 s.length = .ok x := by
    rw [put_zero, List.append_assoc]
    exact rdN_mid (A := []) (M := x) (B := [0] ++ p.drop (x ++ [0]).length) (i := 0) (n := s.length) rfl hxl.symm
  rw [e, ok_bind, (tests_pass junk).1, ok_bind, (tests_pass junk).2, ok_bind]
  rfl

theorem mainArg_long (s aj : List Byte) (junk : Nat → Byte) (h0 : 0 ∉ s) (hl : 2048 ≤ s.length) :
    mainArg (s ++ 0 :: aj) junk = .error .oobWrite := by
  unfold mainArg
  generalize hp : (List.range 2048).map junk = p
  have hpl : p.length = 2048 := by rw [← hp]; simp
  clear hp
  rw [Hex.strlen_cstr _ _ h0, ok_bind]
  by_cases h : s.length = 2048
  · rw [rc4_prefix_put p s (0 :: aj) _ (by decide) (by omega), ok_bind]
    generalize hx : List.zipWith (· ^^^ ·) s (keystream (bytes! "just for test") (by decide) s.length) = x
    have hxl : x.length = s.length := by rw [← hx]; simp [keystream, prga_length]
    unfold wr
    rw [if_neg (by rw [put_length (by omega)]; omega), error_bind]
  · obtain ⟨box, hb, hrep⟩ := initBox_rep (bytes! "just for test") (by decide)
    have := crypt_oob (s ++ 0 :: aj) s.length 0 0 0 box _ p (by omega) (by omega) (by simp) hrep
    unfold rc4
    rw [hb, ok_bind]
    rw [show (0 : Byte).toNat = 0 from rfl] at this
    rw [this, error_bind]

end Ulz.Saber
