import Verif.Spec.Tempdirs
import Verif.Proofs.Filelib
set_option linter.unusedSimpArgs false
set_option linter.unusedVariables false
namespace Ulz.Tempdirs
open Spec
open Ulz.Filelib (World Mk mktempdir randomize mkdtempLoop ulz_mkdtemp cstr gen_fn cstr_ok cypher_nonzero gen_fn_spec)

def draw (rand : Nat → Nat) (n k : Nat) : List Byte :=
  (List.range k).map fun t => Numbers.conv_cypher.getD (rand (n + t) % 62) 0

theorem draw_length (rand n k) : (draw rand n k).length = k := by simp [draw]

theorem draw_succ (rand n k) :
    draw rand n (k + 1) = Numbers.conv_cypher.getD (rand n % 62) 0 :: draw rand (n + 1) k := by
  unfold draw
  rw [List.range_succ_eq_map, List.map_cons, List.map_map]
  congr 1
  apply List.map_congr_left
  intro t _
  simp [Nat.add_comm 1 t, Nat.add_assoc]

theorem draw_cypher (rand n k) : ∀ c ∈ draw rand n k, c ∈ Numbers.conv_cypher := by
  intro c hc
  simp only [draw, List.mem_map, List.mem_range] at hc
  obtain ⟨t, _, rfl⟩ := hc
  have hl : Numbers.conv_cypher.length = 62 := by decide
  rw [List.getD_eq_getElem?_getD, List.getElem?_eq_getElem (by rw [hl]; exact Nat.mod_lt _ (by decide))]
  exact List.getElem_mem _

theorem randomize_eq : ∀ (k : Nat) (w : World) (A M B : List Byte), M.length = k →
    randomize w (A ++ M ++ B) A.length k = .ok ({ w with nrand := w.nrand + k }, A ++ draw w.rand w.nrand k ++ B) := by
  intro k
  induction k with
  | zero =>
    intro w A M B h
    rw [List.length_eq_zero_iff.1 h]
    rfl
  | succ k ih =>
    intro w A M B h
    match M, h with
    | m :: M, h =>
      have hlt : w.rand w.nrand % Numbers.conv_cypher.length < Numbers.conv_cypher.length := Nat.mod_lt _ (by decide)
      rw [randomize, rd_ok hlt, ok_bind, List.append_assoc, List.cons_append, wr_append rfl, ok_bind]
      have hl : Numbers.conv_cypher.length = 62 := by decide
      have e : Numbers.conv_cypher[w.rand w.nrand % Numbers.conv_cypher.length] =
          Numbers.conv_cypher.getD (w.rand w.nrand % 62) 0 := by
        rw [List.getD_eq_getElem?_getD, List.getElem?_eq_getElem (by rw [hl]; exact Nat.mod_lt _ (by decide))]
        simp only [hl, Option.getD_some]
      rw [e, draw_succ]
      generalize Numbers.conv_cypher.getD (w.rand w.nrand % 62) 0 = c
      have := ih { w with nrand := w.nrand + 1 } (A ++ [c]) M B (by simpa using h)
      simp only [List.length_append, List.length_cons, List.length_nil, Nat.zero_add] at this
      have e2 : A ++ [c] ++ M ++ B = A ++ c :: (M ++ B) := by simp
      rw [e2] at this
      rw [this]
      simp [Nat.add_comm 1 k, Nat.add_assoc]

/-- What a fixed sequence of answers makes of the loop. -/
theorem loop_exact {l : Nat} {A B : List Byte} (hl : l = A.length + 6) (h0 : (0 : Byte) ∉ A) (rand : Nat → Nat) (f : Nat → Mk)
    (made : List (List Byte)) : ∀ (m fuel nr nm : Nat) (M : List Byte), M.length = 6 →
    (∀ k, k < m → f (nm + k) = .eexist) → f (nm + m) ≠ .eexist → m < fuel →
    mkdtempLoop l fuel ⟨rand, fun n _ => f n, nr, nm, made⟩ (A ++ M ++ 0 :: B) =
      .ok (⟨rand, fun n _ => f n, nr + 6 * (m + 1), nm + m + 1,
          (if f (nm + m) = .ok then [A ++ draw rand (nr + 6 * m) 6] else []) ++ made⟩,
        A ++ draw rand (nr + 6 * m) 6 ++ 0 :: B, f (nm + m) = .ok) := by
  intro m
  induction m with
  | zero =>
    intro fuel nr nm M hM h1 h2 hf
    obtain ⟨fuel, rfl⟩ : ∃ g, fuel = g + 1 := ⟨fuel - 1, by omega⟩
    have hA : A.length = l - 6 := by omega
    rw [mkdtempLoop, ← hA, randomize_eq 6 _ A M (0 :: B) hM, ok_bind]
    simp only
    have hz : (0 : Byte) ∉ A ++ draw rand nr 6 := by
      simp only [List.mem_append, not_or]; exact ⟨h0, cypher_nonzero (draw_cypher _ _ _)⟩
    rw [cstr_ok hz, ok_bind]
    simp only [Nat.add_zero, Nat.mul_zero] at h2 ⊢
    cases hfn : f nm with
    | ok => simp [pure_eq_ok]
    | eexist => exact absurd hfn h2
    | error => simp [pure_eq_ok]
  | succ m ih =>
    intro fuel nr nm M hM h1 h2 hf
    obtain ⟨fuel, rfl⟩ : ∃ g, fuel = g + 1 := ⟨fuel - 1, by omega⟩
    have hA : A.length = l - 6 := by omega
    rw [mkdtempLoop, ← hA, randomize_eq 6 _ A M (0 :: B) hM, ok_bind]
    simp only
    have hz : (0 : Byte) ∉ A ++ draw rand nr 6 := by
      simp only [List.mem_append, not_or]; exact ⟨h0, cypher_nonzero (draw_cypher _ _ _)⟩
    rw [cstr_ok hz, ok_bind]
    have hfn : f nm = .eexist := h1 0 (by omega)
    simp only [hfn]
    have := ih fuel (nr + 6) (nm + 1) (draw rand nr 6) (draw_length _ _ _)
      (fun k hk => by have := h1 (k + 1) (by omega); rwa [Nat.add_assoc, Nat.add_comm 1 k])
      (by rwa [Nat.add_assoc, Nat.add_comm 1 m]) (by omega)
    rw [this]
    have e1 : nm + 1 + m = nm + (m + 1) := by omega
    have e2 : nr + 6 + 6 * (m + 1) = nr + 6 * (m + 1 + 1) := by omega
    have e3 : nr + 6 + 6 * m = nr + 6 * (m + 1) := by omega
    rw [e1, e2, e3]

theorem mkdtemp_exact {A B : List Byte} (h0 : (0 : Byte) ∉ A) (rand : Nat → Nat) (f : Nat → Mk)
    (made : List (List Byte)) (m fuel nr nm : Nat) (h1 : ∀ k, k < m → f (nm + k) = .eexist) (h2 : f (nm + m) ≠ .eexist)
    (hf : m < fuel) :
    ulz_mkdtemp fuel ⟨rand, fun n _ => f n, nr, nm, made⟩ (A ++ bytes! "XXXXXX" ++ 0 :: B) =
      .ok (⟨rand, fun n _ => f n, nr + 6 * (m + 1), nm + m + 1,
          (if f (nm + m) = .ok then [A ++ draw rand (nr + 6 * m) 6] else []) ++ made⟩,
        A ++ draw rand (nr + 6 * m) 6 ++ 0 :: B, f (nm + m) = .ok) := by
  have hX : (0 : Byte) ∉ bytes! "XXXXXX" := by decide
  have hl : (bytes! "XXXXXX").length = 6 := rfl
  unfold ulz_mkdtemp
  rw [Hex.strlen_cstr _ _ (by simp only [List.mem_append, not_or]; exact ⟨h0, hX⟩), ok_bind,
    if_neg (by rw [List.length_append, hl]; omega)]
  exact loop_exact (by rw [List.length_append, hl]) h0 rand f made m fuel nr nm _ hl h1 h2 hf

/-- The next step as a function of the answers, without the buffer: the second phase (in /tmp), then the first. -/
inductive St where
  | asks (path : List Byte)
  | owns (path : List Byte)
  | fails

def st2 (rand : Nat → Nat) (t : List Byte) (m : Nat) : List Mk → St
  | [] => .asks (bytes! "/tmp/" ++ t ++ draw rand (6 * m) 6)
  | .eexist :: a => st2 rand t (m + 1) a
  | .ok :: _ => .owns (bytes! "/tmp/" ++ t ++ draw rand (6 * m) 6)
  | .error :: _ => .fails

def st1 (rand : Nat → Nat) (t : List Byte) (m : Nat) : List Mk → St
  | [] => .asks (bytes! "/dev/shm/" ++ t ++ draw rand (6 * m) 6)
  | .eexist :: a => st1 rand t (m + 1) a
  | .ok :: _ => .owns (bytes! "/dev/shm/" ++ t ++ draw rand (6 * m) 6)
  | .error :: a => st2 rand t (m + 1) a

/-- How the next step of the code relates to that function. -/
def Agree : Next → St → Prop
  | .asks q, .asks q' => q = q'
  | .ends b n, .owns q => q ++ [0] <+: b ∧ n = q.length ∧ n ≠ 0
  | .ends _ n, .fails => n = 0
  | _, _ => False

/-- The answers up to the first that is not EEXIST. -/
theorem ans_split (a : List Mk) :
    (∃ m, a = List.replicate m .eexist) ∨ (∃ m x r, a = List.replicate m .eexist ++ x :: r ∧ x ≠ .eexist) := by
  induction a with
  | nil => exact .inl ⟨0, rfl⟩
  | cons y a ih =>
    by_cases hy : y = .eexist
    · subst hy
      rcases ih with ⟨m, rfl⟩ | ⟨m, x, r, rfl, hx⟩
      · exact .inl ⟨m + 1, rfl⟩
      · exact .inr ⟨m + 1, x, r, rfl, hx⟩
    · exact .inr ⟨0, y, a, rfl, hy⟩

theorem st2_rep (rand t) : ∀ m j (a : List Mk), st2 rand t j (List.replicate m .eexist ++ a) = st2 rand t (j + m) a
  | 0, j, a => rfl
  | m + 1, j, a => by
    rw [List.replicate_succ, List.cons_append, st2, st2_rep rand t m (j + 1) a]
    congr 1; omega

theorem st1_rep (rand t) : ∀ m j (a : List Mk), st1 rand t j (List.replicate m .eexist ++ a) = st1 rand t (j + m) a
  | 0, j, a => rfl
  | m + 1, j, a => by
    rw [List.replicate_succ, List.cons_append, st1, st1_rep rand t m (j + 1) a]
    congr 1; omega

theorem getD_rep (m k : Nat) (hk : k < m) (r : List Mk) : (List.replicate m Mk.eexist ++ r).getD k .ok = .eexist := by
  rw [List.getD_eq_getElem?_getD, List.getElem?_append_left (by simpa using hk)]
  simp [List.getElem?_replicate, hk]

theorem getD_at (m : Nat) (x : Mk) (r : List Mk) : (List.replicate m Mk.eexist ++ x :: r).getD m .ok = x := by
  rw [List.getD_eq_getElem?_getD, List.getElem?_append_right (by simp)]
  simp

theorem getD_after (m k : Nat) (x : Mk) (r : List Mk) :
    (List.replicate m Mk.eexist ++ x :: r).getD (m + 1 + k) .ok = r.getD k .ok := by
  rw [List.getD_eq_getElem?_getD, List.getElem?_append_right (by simp; omega), List.getD_eq_getElem?_getD]
  have : m + 1 + k - (List.replicate m Mk.eexist).length = k + 1 := by simp; omega
  rw [this, List.getElem?_cons_succ]

theorem getD_end (m : Nat) : (List.replicate m Mk.eexist).getD m .ok = .ok := by
  rw [List.getD_eq_getElem?_getD, List.getElem?_eq_none (by simp)]
  rfl

theorem first_other (a : List Mk) : ∃ m, m ≤ a.length ∧ (∀ k, k < m → a.getD k .ok = .eexist) ∧ a.getD m .ok ≠ .eexist ∧
    a.take m = List.replicate m .eexist ∧ (m = a.length ∧ a.getD m .ok = .ok ∨ m < a.length ∧ ∃ r, a = List.replicate m .eexist ++ a.getD m .ok :: r ∧
      ∀ k, a.getD (m + 1 + k) .ok = r.getD k .ok) := by
  rcases ans_split a with ⟨m, rfl⟩ | ⟨m, x, r, rfl, hx⟩
  · refine ⟨m, by simp, fun k hk => by simpa using getD_rep m k hk [], by rw [getD_end]; simp, by simp, .inl ⟨by simp, getD_end m⟩⟩
  · refine ⟨m, by simp, fun k hk => getD_rep m k hk _, by rw [getD_at]; exact hx, by simp, .inr ⟨by simp, r, by rw [getD_at], fun k => getD_after m k x r⟩⟩

theorem next_agrees (c : Call) (t junk : List Byte) (hp : c.pre = t ++ 0 :: junk) (h0 : (0 : Byte) ∉ t)
    (hb : c.bufsize ≤ c.buf.length) (hbig : 9 + t.length + 7 ≤ c.bufsize) (ans : List Mk) :
    Agree (next c ans) (st1 c.rand t 0 ans) := by
  unfold next mktempdir
  rw [hp, Hex.strlen_cstr _ _ h0, ok_bind, if_neg (by omega)]
  rw [gen_fn_spec (T := bytes! "/dev/shm/") (P := t) (by simp; omega), ok_bind]
  simp only
  have hT1 : (0 : Byte) ∉ bytes! "/dev/shm/" ++ t := by
    simp only [List.mem_append, not_or]; exact ⟨by decide, h0⟩
  have hT2 : (0 : Byte) ∉ bytes! "/tmp/" ++ t := by
    simp only [List.mem_append, not_or]; exact ⟨by decide, h0⟩
  have l1 : (bytes! "/dev/shm/").length = 9 := rfl
  have l2 : (bytes! "/tmp/").length = 5 := rfl
  obtain ⟨m, hm, hlt, hne, htk, hcase⟩ := first_other ans
  rw [mkdtemp_exact hT1 c.rand (fun n => ans.getD n .ok) [] m (ans.length + 1) 0 0
    (fun k hk => by simpa using hlt k hk) (by simpa using hne) (by omega), ok_bind]
  simp only [Nat.zero_add]
  rcases hcase with ⟨he, hok⟩ | ⟨hl, r, ha, hr⟩
  · rw [hok]
    simp only [decide_true, if_true, pure_eq_ok]
    rw [if_pos (by omega)]
    have e := st1_rep c.rand t m 0 []
    rw [← htk, List.append_nil, he, List.take_length, ← he] at e
    rw [e]
    simp only [st1, Nat.zero_add, Agree, List.cons_append, List.headD_cons]
  · have e := st1_rep c.rand t m 0 (ans.getD m .ok :: r)
    rw [← ha] at e
    rw [e]
    generalize hx : ans.getD m .ok = x at hne ha e ⊢
    cases x with
    | eexist => exact absurd rfl hne
    | ok =>
      simp only [decide_true, if_true, pure_eq_ok, st1]
      rw [if_neg (by omega)]
      simp only [Agree]
      refine ⟨⟨c.buf.drop (9 + t.length + 7), by simp [l1]⟩, by simp [l1, draw_length]; omega, by omega⟩
    | error =>
      simp only [reduceCtorEq, decide_false, Bool.false_eq_true, if_false, st1]
      rw [gen_fn_spec (T := bytes! "/tmp/") (P := t) (by simp [draw_length]; omega), ok_bind]
      simp only
      obtain ⟨m2, hm2, hlt2, hne2, htk2, hcase2⟩ := first_other r
      have hrl : ans.length = m + 1 + r.length := by rw [ha]; simp; omega
      rw [mkdtemp_exact hT2 c.rand (fun n => ans.getD n .ok) _ m2 (ans.length + 1) (6 * (m + 1)) (m + 1)
        (fun k hk => by simpa only [hr] using hlt2 k hk) (by simpa only [hr] using hne2) (by omega), ok_bind]
      simp only [hr]
      have e6 : 6 * (m + 1) + 6 * m2 = 6 * (0 + m + 1 + m2) := by omega
      rcases hcase2 with ⟨he, hok⟩ | ⟨hl2, r2, ha2, _⟩
      · rw [hok]
        simp only [decide_true, if_true, pure_eq_ok]
        rw [if_pos (by omega)]
        have e := st2_rep c.rand t m2 (0 + m + 1) []
        rw [← htk2, List.append_nil, he, List.take_length, ← he] at e
        rw [e]
        simp only [st2, Agree, List.cons_append, List.headD_cons, e6]
      · have e := st2_rep c.rand t m2 (0 + m + 1) (r.getD m2 .ok :: r2)
        rw [← ha2] at e
        rw [e]
        generalize hx2 : r.getD m2 .ok = y at hne2 ha2 e ⊢
        cases y with
        | eexist => exact absurd rfl hne2
        | ok =>
          simp only [decide_true, if_true, pure_eq_ok, st2]
          rw [if_neg (by omega), e6]
          simp only [Agree]
          refine ⟨⟨_, List.append_assoc _ _ _⟩, by simp [l2, draw_length]; omega, by omega⟩
        | error =>
          simp only [reduceCtorEq, decide_false, Bool.false_eq_true, if_false, st2, pure_eq_ok]
          rw [if_neg (by omega)]
          simp only [Agree]

theorem st2_snoc (rand t) : ∀ (a : List Mk) m q, st2 rand t m a = .asks q →
    st2 rand t m (a ++ [.ok]) = .owns q ∧
    ∀ x, x ≠ .ok → st2 rand t m (a ++ [x]) = .fails ∨ ∃ q', st2 rand t m (a ++ [x]) = .asks q'
  | [], m, q, h => by
    simp only [st2, St.asks.injEq] at h
    refine ⟨by rw [← h]; rfl, fun x hx => ?_⟩
    cases x with
    | ok => exact absurd rfl hx
    | eexist => exact .inr ⟨_, rfl⟩
    | error => exact .inl rfl
  | .eexist :: a, m, q, h => by
    rw [st2] at h
    simpa [st2] using st2_snoc rand t a (m + 1) q h
  | .ok :: a, m, q, h => by simp [st2] at h
  | .error :: a, m, q, h => by simp [st2] at h

theorem st1_snoc (rand t) : ∀ (a : List Mk) m q, st1 rand t m a = .asks q →
    st1 rand t m (a ++ [.ok]) = .owns q ∧
    ∀ x, x ≠ .ok → st1 rand t m (a ++ [x]) = .fails ∨ ∃ q', st1 rand t m (a ++ [x]) = .asks q'
  | [], m, q, h => by
    simp only [st1, St.asks.injEq] at h
    refine ⟨by rw [← h]; rfl, fun x hx => ?_⟩
    cases x with
    | ok => exact absurd rfl hx
    | eexist => exact .inr ⟨_, rfl⟩
    | error => exact .inr ⟨_, rfl⟩
  | .eexist :: a, m, q, h => by
    rw [st1] at h
    simpa [st1] using st1_snoc rand t a (m + 1) q h
  | .ok :: a, m, q, h => by simp [st1] at h
  | .error :: a, m, q, h => by
    rw [st1] at h
    simpa [st1] using st2_snoc rand t a (m + 1) q h

/-- Legal arguments. -/
def CallOk (c : Call) : Prop :=
  c.bufsize ≤ c.buf.length ∧ ∃ t junk, c.pre = t ++ 0 :: junk ∧ (0 : Byte) ∉ t

theorem next_small (c : Call) (t junk : List Byte) (hp : c.pre = t ++ 0 :: junk) (h0 : (0 : Byte) ∉ t)
    (hsm : c.bufsize < 9 + t.length + 7) (ans : List Mk) : next c ans = .ends c.buf 0 := by
  unfold next mktempdir
  rw [hp, Hex.strlen_cstr _ _ h0, ok_bind, if_pos hsm]
  simp [pure_eq_ok]

theorem next_bad {c : Call} (hc : CallOk c) (ans e) : next c ans ≠ .bad e := by
  obtain ⟨hb, t, junk, hp, h0⟩ := hc
  by_cases hsm : c.bufsize < 9 + t.length + 7
  · rw [next_small c t junk hp h0 hsm]; simp
  · intro h
    have := next_agrees c t junk hp h0 hb (by omega) ans
    rw [h] at this
    simp [Agree] at this

theorem next_snoc {c : Call} (hc : CallOk c) {ans q} (h : next c ans = .asks q) :
    (∃ b n, next c (ans ++ [.ok]) = .ends b n ∧ n ≠ 0 ∧ b.take n = q) ∧
    ∀ x, x ≠ .ok → (∃ q', next c (ans ++ [x]) = .asks q') ∨ ∃ b, next c (ans ++ [x]) = .ends b 0 := by
  obtain ⟨hb, t, junk, hp, h0⟩ := hc
  by_cases hsm : c.bufsize < 9 + t.length + 7
  · rw [next_small c t junk hp h0 hsm] at h; simp at h
  · have ag := next_agrees c t junk hp h0 hb (by omega)
    have a0 := ag ans
    rw [h] at a0
    have hs : st1 c.rand t 0 ans = .asks q := by
      cases hst : st1 c.rand t 0 ans with
      | asks q' => rw [hst] at a0; simp only [Agree] at a0; rw [a0]
      | owns q' => rw [hst] at a0; simp [Agree] at a0
      | fails => rw [hst] at a0; simp [Agree] at a0
    obtain ⟨s1, s2⟩ := st1_snoc c.rand t ans 0 q hs
    constructor
    · have a1 := ag (ans ++ [.ok])
      rw [s1] at a1
      cases hn : next c (ans ++ [.ok]) with
      | asks q' => rw [hn] at a1; simp [Agree] at a1
      | bad e => rw [hn] at a1; simp [Agree] at a1
      | ends b n =>
        rw [hn] at a1
        simp only [Agree] at a1
        obtain ⟨⟨r, hr⟩, hlen, hne⟩ := a1
        refine ⟨b, n, rfl, hne, ?_⟩
        rw [← hr, hlen, List.append_assoc, List.take_left]
    · intro x hx
      have a1 := ag (ans ++ [x])
      rcases s2 x hx with e | ⟨q', e⟩
      · rw [e] at a1
        cases hn : next c (ans ++ [x]) with
        | asks q' => rw [hn] at a1; simp [Agree] at a1
        | bad e => rw [hn] at a1; simp [Agree] at a1
        | ends b n =>
          rw [hn] at a1
          simp only [Agree] at a1
          exact .inr ⟨b, by rw [a1]⟩
      · rw [e] at a1
        cases hn : next c (ans ++ [x]) with
        | asks q' => exact .inl ⟨_, rfl⟩
        | bad e => rw [hn] at a1; simp [Agree] at a1
        | ends b n => rw [hn] at a1; simp [Agree] at a1

theorem flatMap_set {α β} (f : α → List β) (l : List α) (i : Nat) (x : α) (hi : i < l.length) :
    (l.set i x).flatMap f = (l.take i).flatMap f ++ (f x ++ (l.drop (i + 1)).flatMap f) := by
  rw [List.set_eq_take_append_cons_drop, if_pos hi, List.flatMap_append, List.flatMap_cons]

theorem flatMap_at {α β} (f : α → List β) (l : List α) (i : Nat) (hi : i < l.length) :
    l.flatMap f = (l.take i).flatMap f ++ (f l[i] ++ (l.drop (i + 1)).flatMap f) := by
  have := flatMap_set f l i l[i] hi
  rwa [List.set_getElem_self] at this

/-- Invariant: the directories are those owned by processes, and `O`; none exists twice. -/
structure Inv (O : List (List Byte)) (s : Sys) : Prop where
  perm : s.dirs.Perm (allOwned s.procs ++ O)
  nodup : s.dirs.Nodup
  calls : ∀ p ∈ s.procs, CallOk p.call
  done : ∀ p ∈ s.procs, p.removed = true → ∃ b n, next p.call p.ans = .ends b n

theorem set_done {s : Sys} (h : ∀ p ∈ s.procs, p.removed = true → ∃ b n, next p.call p.ans = .ends b n) {i : Nat} {p : Proc}
    (hp : p.removed = true → ∃ b n, next p.call p.ans = .ends b n) :
    ∀ q ∈ s.procs.set i p, q.removed = true → ∃ b n, next q.call q.ans = .ends b n := by
  intro q hq
  rcases List.mem_or_eq_of_mem_set hq with h1 | h1
  · exact h q h1
  · rw [h1]; exact hp

theorem set_calls {s : Sys} (h : ∀ p ∈ s.procs, CallOk p.call) {i : Nat} {p : Proc} (hp : CallOk p.call) :
    ∀ q ∈ s.procs.set i p, CallOk q.call := by
  intro q hq
  rcases List.mem_or_eq_of_mem_set hq with h1 | h1
  · exact h q h1
  · rw [h1]; exact hp

theorem step_inv {O s} (h : Inv O s) (e : Ev) :
    ∃ O', Inv O' (step s e) ∧ (O' = O ∨ ∃ d, e = .other d ∧ d ∉ s.dirs ∧ O' = d :: O) := by
  cases e with
  | other d =>
    simp only [step, mkdir]
    by_cases hd : d ∈ s.dirs
    · rw [if_pos hd]
      exact ⟨O, h, .inl rfl⟩
    · rw [if_neg hd]
      simp only [Bool.false_eq_true, if_false]
      refine ⟨d :: O, ⟨?_, List.nodup_cons.2 ⟨hd, h.nodup⟩, h.calls, h.done⟩, .inr ⟨d, rfl, hd, rfl⟩⟩
      exact (h.perm.cons d).trans List.perm_middle.symm
  | call i refuse =>
    refine ⟨O, ?_, .inl rfl⟩
    simp only [step]
    cases hp : s.procs[i]? with
    | none => exact h
    | some p =>
      obtain ⟨hi, rfl⟩ := List.getElem?_eq_some_iff.1 hp
      have hc := h.calls _ (List.getElem_mem hi)
      simp only
      cases hn : next s.procs[i].call s.procs[i].ans with
      | bad e => exact h
      | ends b n => exact h
      | asks q =>
        obtain ⟨⟨b, n, e1, e2, e3⟩, e4⟩ := next_snoc hc hn
        have ho : owned s.procs[i] = [] := by simp [owned, hn]
        have hrem : ¬ s.procs[i].removed = true := fun hr => by
          obtain ⟨b, n, e⟩ := h.done _ (List.getElem_mem hi) hr
          rw [hn] at e; cases e
        simp only [mkdir]
        have same : ∀ x, x ≠ Mk.ok → Inv O ⟨s.dirs, s.procs.set i { s.procs[i] with ans := s.procs[i].ans ++ [x] }⟩ := by
          intro x hx
          refine ⟨?_, h.nodup, set_calls h.calls hc, set_done h.done fun hr => absurd hr hrem⟩
          have hx : owned { s.procs[i] with ans := s.procs[i].ans ++ [x] } = [] := by
            rcases e4 x hx with ⟨q', e⟩ | ⟨b, e⟩ <;> simp [owned, e]
          have := h.perm
          simp only [allOwned] at this ⊢
          rw [flatMap_at owned s.procs i hi, ho] at this
          rw [flatMap_set owned s.procs i _ hi, hx]
          exact this
        by_cases hd : q ∈ s.dirs
        · rw [if_pos hd]; exact same _ (by simp)
        · rw [if_neg hd]
          by_cases hr : refuse = true
          · rw [if_pos hr]; exact same _ (by simp)
          · rw [if_neg hr]
            simp only
            refine ⟨?_, List.nodup_cons.2 ⟨hd, h.nodup⟩, set_calls h.calls hc, set_done h.done fun hr => absurd hr hrem⟩
            have hx : owned { s.procs[i] with ans := s.procs[i].ans ++ [.ok] } = [q] := by
              simp [owned, e1, e2, e3, hrem]
            have := h.perm.cons q
            simp only [allOwned] at this ⊢
            rw [flatMap_at owned s.procs i hi, ho] at this
            rw [flatMap_set owned s.procs i _ hi, hx]
            refine this.trans ?_
            simp only [List.nil_append, List.append_assoc, List.cons_append]
            exact List.perm_middle.symm
  | remove i =>
    refine ⟨O, ?_, .inl rfl⟩
    simp only [step]
    cases hp : s.procs[i]? with
    | none => exact h
    | some p =>
      obtain ⟨hi, rfl⟩ := List.getElem?_eq_some_iff.1 hp
      have hc := h.calls _ (List.getElem_mem hi)
      simp only
      cases hn : next s.procs[i].call s.procs[i].ans with
      | bad e => exact h
      | asks q => exact h
      | ends b n =>
        simp only
        by_cases h0 : n = 0 ∨ s.procs[i].removed = true
        · rw [if_pos h0]; exact h
        · rw [if_neg h0]
          refine ⟨?_, h.nodup.erase _, set_calls h.calls hc, set_done h.done fun _ => ⟨b, n, hn⟩⟩
          have ho : owned s.procs[i] = [b.take n] := by simp only [owned, hn, if_neg h0]
          have hx : owned { s.procs[i] with removed := true } = [] := by simp [owned, hn]
          have := h.perm.erase (b.take n)
          simp only [allOwned] at this ⊢
          rw [flatMap_at owned s.procs i hi, ho] at this
          rw [flatMap_set owned s.procs i _ hi, hx]
          refine this.trans ?_
          have := (List.perm_middle (a := b.take n) (l₁ := (s.procs.take i).flatMap owned)
            (l₂ := (s.procs.drop (i + 1)).flatMap owned ++ O)).erase (b.take n)
          rw [List.erase_cons_head] at this
          simpa only [List.nil_append, List.append_assoc, List.cons_append] using this

theorem run_inv : ∀ (es : List Ev) {O s}, Inv O s →
    ∃ X, X.Sublist (others es) ∧ ∃ O', Inv O' (run s es) ∧ O'.Perm (X ++ O)
  | [], O, s, h => ⟨[], List.Sublist.refl _, O, h, List.Perm.refl _⟩
  | e :: es, O, s, h => by
    obtain ⟨O1, h1, h2⟩ := step_inv h e
    obtain ⟨X, hX, O2, h3, h4⟩ := run_inv es h1
    rcases h2 with rfl | ⟨d, rfl, _, rfl⟩
    · refine ⟨X, ?_, O2, h3, h4⟩
      cases e with
      | call i r => exact hX
      | remove i => exact hX
      | other d => exact hX.cons _
    · exact ⟨d :: X, hX.cons_cons d, O2, h3, h4.trans List.perm_middle⟩

theorem start_inv {ps : List Proc} (h : Start ps) {D : List (List Byte)} (hD : D.Nodup) : Inv D ⟨D, ps⟩ := by
  have hc : ∀ p ∈ ps, CallOk p.call := fun p hp => ⟨(h p hp).2.2.1, (h p hp).2.2.2⟩
  refine ⟨?_, hD, hc, fun p hp hr => by rw [(h p hp).2.1] at hr; cases hr⟩
  have : allOwned ps = [] := by
    simp only [allOwned, List.flatMap_eq_nil_iff]
    intro p hp
    obtain ⟨hb, t, junk, hpre, h0⟩ := hc p hp
    simp only [owned, (h p hp).1]
    by_cases hsm : p.call.bufsize < 9 + t.length + 7
    · rw [next_small p.call t junk hpre h0 hsm]; simp
    · have := next_agrees p.call t junk hpre h0 hb (by omega) []
      cases hn : next p.call [] with
      | asks q => rfl
      | bad e => rfl
      | ends b n => rw [hn] at this; simp [Agree, st1] at this
  rw [this]
  exact List.Perm.refl _

theorem run_length : ∀ (es : List Ev) (s : Sys), (run s es).procs.length = s.procs.length
  | [], s => rfl
  | e :: es, s => by
    rw [run, run_length es]
    cases e <;> simp only [step]
    all_goals first | rfl | skip
    all_goals
      split
      · rfl
      · split <;> first | rfl | (simp; done) | (split <;> simp)

theorem next_eexist (c : Call) (t junk : List Byte) (hp : c.pre = t ++ 0 :: junk) (h0 : (0 : Byte) ∉ t)
    (hb : c.bufsize ≤ c.buf.length) (hbig : 16 + t.length ≤ c.bufsize) (m : Nat) :
    next c (List.replicate m .eexist) = .asks (bytes! "/dev/shm/" ++ t ++ draw c.rand (6 * m) 6) := by
  have := next_agrees c t junk hp h0 hb (by omega) (List.replicate m .eexist)
  have e := st1_rep c.rand t m 0 []
  rw [List.append_nil, Nat.zero_add] at e
  rw [e] at this
  cases hn : next c (List.replicate m .eexist) with
  | asks q => rw [hn] at this; simp only [st1, Agree] at this; rw [this]
  | bad e => rw [hn] at this; simp [Agree, st1] at this
  | ends b n => rw [hn] at this; simp [Agree, st1] at this

theorem draw_name (rand : Nat → Nat) (m : Nat) : draw rand (6 * m) 6 = name rand m := rfl

theorem run_append : ∀ (a b : List Ev) (s : Sys), run s (a ++ b) = run (run s a) b
  | [], b, s => rfl
  | e :: a, b, s => run_append a b (step s e)

/-- Process `i` keeps asking while the names exist. -/
theorem retry {c : Call} {t junk : List Byte} (hp : c.pre = t ++ 0 :: junk) (h0 : (0 : Byte) ∉ t)
    (hb : c.bufsize ≤ c.buf.length) (hbig : 16 + t.length ≤ c.bufsize) {i : Nat} {r : Bool} (rem : Bool) :
    ∀ (m j : Nat) (s : Sys), s.procs[i]? = some ⟨c, List.replicate j .eexist, rem⟩ →
    (∀ k, k < m → bytes! "/dev/shm/" ++ t ++ name c.rand (j + k) ∈ s.dirs) →
    run s (List.replicate m (.call i r)) = ⟨s.dirs, s.procs.set i ⟨c, List.replicate (j + m) .eexist, rem⟩⟩
  | 0, j, s, hs, _ => by
    obtain ⟨hi, e⟩ := List.getElem?_eq_some_iff.1 hs
    rw [List.replicate_zero, run, Nat.add_zero, ← e, List.set_getElem_self]
  | m + 1, j, s, hs, hk => by
    obtain ⟨hi, e⟩ := List.getElem?_eq_some_iff.1 hs
    have h1 := hk 0 (by omega)
    rw [Nat.add_zero] at h1
    have hst : step s (.call i r) = ⟨s.dirs, s.procs.set i ⟨c, List.replicate (j + 1) .eexist, rem⟩⟩ := by
      simp only [step, hs]
      rw [next_eexist c t junk hp h0 hb hbig j]
      simp only
      rw [draw_name, mkdir, if_pos h1, List.replicate_succ']
    rw [List.replicate_succ, run, hst]
    have := retry hp h0 hb hbig (i := i) (r := r) rem m (j + 1)
      ⟨s.dirs, s.procs.set i ⟨c, List.replicate (j + 1) .eexist, rem⟩⟩ (by simp [hi])
      (fun k hkm => by have := hk (k + 1) (by omega); rwa [show j + 1 + k = j + (k + 1) by omega])
    rw [this, List.set_set, show j + 1 + m = j + (m + 1) by omega]

/-- Processes that have not called `srand` run one after the other. -/
theorem queue {c : Call} {t junk : List Byte} (hp : c.pre = t ++ 0 :: junk) (h0 : (0 : Byte) ∉ t)
    (hb : c.bufsize ≤ c.buf.length) (hbig : 16 + t.length ≤ c.bufsize) (D : List (List Byte)) (N : Nat)
    (hinj : ∀ i j, i < N → j < N → name c.rand i = name c.rand j → i = j)
    (hnew : ∀ j, j < N → bytes! "/dev/shm/" ++ t ++ name c.rand j ∉ D) : ∀ k, k ≤ N →
    run ⟨D, List.replicate N ⟨c, [], false⟩⟩ ((List.range k).flatMap fun i => List.replicate (i + 1) (.call i false)) =
      ⟨(List.range k).reverse.map (fun j => bytes! "/dev/shm/" ++ t ++ name c.rand j) ++ D,
        (List.range k).map (fun i => ⟨c, List.replicate i .eexist ++ [.ok], false⟩) ++
          List.replicate (N - k) ⟨c, [], false⟩⟩
  | 0, _ => rfl
  | k + 1, hk => by
    rw [List.range_succ, List.flatMap_append, run_append, queue hp h0 hb hbig D N hinj hnew k (by omega)]
    simp only [List.flatMap_cons, List.flatMap_nil, List.append_nil]
    rw [List.replicate_succ', run_append]
    have hrep : List.replicate (N - k) (⟨c, [], false⟩ : Proc) = ⟨c, [], false⟩ :: List.replicate (N - (k + 1)) ⟨c, [], false⟩ := by
      rw [← List.replicate_succ]; congr 1; omega
    rw [hrep]
    generalize hA : (List.range k).map (fun i => (⟨c, List.replicate i .eexist ++ [.ok], false⟩ : Proc)) = A
    have hAl : A.length = k := by rw [← hA]; simp
    generalize List.replicate (N - (k + 1)) (⟨c, [], false⟩ : Proc) = B
    generalize hE : (List.range k).reverse.map (fun j => bytes! "/dev/shm/" ++ t ++ name c.rand j) ++ D = E
    rw [retry hp h0 hb hbig false k 0 ⟨E, A ++ ⟨c, [], false⟩ :: B⟩
      (by rw [List.getElem?_append_right (by omega), hAl]; simp) (by
        intro j hj
        rw [← hE, Nat.zero_add]
        refine List.mem_append_left _ (List.mem_map.2 ⟨j, by simpa using hj, rfl⟩))]
    have hset : ∀ x : Proc, (A ++ ⟨c, [], false⟩ :: B).set k x = A ++ x :: B := by
      intro x
      rw [List.set_append_right _ _ (by omega), hAl]
      simp
    simp only [hset, Nat.zero_add]
    have hget : (A ++ ⟨c, List.replicate k .eexist, false⟩ :: B)[k]? = some ⟨c, List.replicate k .eexist, false⟩ := by
      rw [List.getElem?_append_right (by omega), hAl]; simp
    have hnot : bytes! "/dev/shm/" ++ t ++ name c.rand k ∉ E := by
      rw [← hE]
      intro hm
      rcases List.mem_append.1 hm with hm | hm
      · obtain ⟨j, hj, ej⟩ := List.mem_map.1 hm
        have hj' : j < k := by simpa using hj
        have := hinj j k (by omega) (by omega) (List.append_cancel_left ej)
        omega
      · exact hnew k (by omega) hm
    have hset2 : ∀ x y : Proc, (A ++ x :: B).set k y = A ++ y :: B := by
      intro x y
      rw [List.set_append_right _ _ (by omega), hAl]
      simp
    simp only [run, step, hget]
    rw [next_eexist c t junk hp h0 hb hbig k]
    simp only
    rw [draw_name, mkdir, if_neg hnot]
    simp only [Bool.false_eq_true, if_false, hset2]
    rw [← hE, ← hA]
    simp only [List.reverse_append, List.reverse_cons, List.reverse_nil, List.nil_append, List.map_append, List.map_cons,
      List.map_nil, List.singleton_append, List.append_assoc, List.cons_append]

end Ulz.Tempdirs
