import Verif.Proofs.Stringptr
import Verif.Proofs.Sblist
/-! Proofs about stringptrlist. -/
namespace Ulz.Stringptr
open Spec

/-! ### join and slices -/

theorem join_cons {sep x : List Byte} {xs : List (List Byte)} (h : xs ≠ []) :
    join sep (x :: xs) = x ++ sep ++ join sep xs := by
  cases xs with
  | nil => exact absurd rfl h
  | cons y ys => rfl

theorem join_length {sep : List Byte} : ∀ {xs : List (List Byte)}, xs ≠ [] →
    (join sep xs).length + sep.length = xs.flatten.length + xs.length * sep.length
  | [], h => absurd rfl h
  | [x], _ => by simp [join]
  | x :: y :: ys, _ => by
    have := join_length (sep := sep) (xs := y :: ys) (by simp)
    rw [join_cons (by simp)]
    simp only [List.length_append, List.flatten_cons, List.length_cons, Nat.add_mul] at this ⊢
    omega

/-- The offsets and lengths of consecutive pieces, `m` bytes apart, from offset `start`. -/
def offsets (m : Nat) : Nat → List (List Byte) → List Piece
  | _, [] => []
  | start, c :: cs => (start, c.length) :: offsets m (start + c.length + m) cs

theorem slices_offsets {t junk : List Byte} : ∀ (cs : List (List Byte)) (D : List Byte) (start : Nat), start = D.length →
    Slices (D ++ join (0 :: t) cs ++ 0 :: junk) (offsets (t.length + 1) start cs) cs
  | [], _, _, _ => .nil
  | [c], D, start, h => by
    refine .cons rfl ?_ .nil
    subst h
    simp only [join, List.append_assoc]
    rw [List.drop_left]
    rw [List.take_append, List.take_of_length_le (by omega)]
    simp
  | c :: d :: cs, D, start, h => by
    subst h
    refine .cons rfl ?_ ?_
    · rw [join_cons (by simp)]
      simp only [List.append_assoc]
      rw [List.drop_left]
      rw [List.take_append, List.take_of_length_le (by omega)]
      simp
    · have := slices_offsets (t := t) (junk := junk) (d :: cs) (D ++ c ++ 0 :: t) (D.length + c.length + (t.length + 1)) (by simp; omega)
      rw [join_cons (by simp)]
      simpa [List.append_assoc] using this

theorem slices_keep {buf : List Byte} {ok : Nat → Bool} {ps : List Piece} {cs : List (List Byte)} (h : Slices buf ps cs) :
    ∀ k, Slices buf (keep ok k ps) (keep ok k cs) := by
  induction h with
  | nil => intro k; exact .nil
  | cons h1 h2 _ ih =>
    intro k
    unfold keep
    split
    · exact .cons h1 h2 (ih _)
    · exact ih _

theorem keep_all {α : Type} {ok : Nat → Bool} (h : ∀ k, ok k = true) : ∀ (l : List α) (k : Nat), keep ok k l = l
  | [], _ => rfl
  | x :: xs, k => by unfold keep; rw [if_pos (h k), keep_all h xs]

/-! ### splitc -/

theorem toInt_inj {a b : Byte} : a.toInt = b.toInt ↔ a = b := BitVec.toInt_inj

theorem acc_keep {α : Type} (ok : Nat → Bool) (k : Nat) (acc xs : List α) (x : α) :
    (if ok k then acc ++ [x] else acc) ++ keep ok (k + 1) xs = acc ++ keep ok k (x :: xs) := by
  rw [keep.eq_def ok k (x :: xs)]
  simp only
  cases ok k <;> simp

theorem splitcLoop_spec (d x : Byte) (junk : List Byte) (ok : Nat → Bool) (size : Nat) :
    ∀ (r D cur : List Byte) (acc : List Piece) (k i ls : Nat), ls = D.length → i = D.length + cur.length →
      size = i + r.length → d ∉ cur →
      ∃ pcs, pcs ≠ [] ∧ join [d] pcs = cur ++ r ∧ (∀ p ∈ pcs, d ∉ p) ∧ pcs.length = r.count d + 1 ∧
        splitcLoop size d.toInt ok (r.length + 1) i ls (D ++ (cur ++ (r ++ x :: junk))) acc k =
          .ok (D ++ join [0] pcs ++ 0 :: junk, acc ++ keep ok k (offsets 1 ls pcs)) := by
  intro r
  induction r with
  | nil =>
    intro D cur acc k i ls h1 h2 h3 h4
    refine ⟨[cur], by simp, by simp [join], by simpa using h4, by simp, ?_⟩
    have hi : i = size := by simpa using h3.symm
    unfold splitcLoop
    rw [if_pos hi]
    simp only [ok_bindE, pure_eq_ok, if_true, List.nil_append]
    rw [← List.append_assoc, wr_append (by simp; omega)]
    simp only [ok_bindE, splitcLoop, List.length_nil, pure_eq_ok]
    have e : i - ls = cur.length := by omega
    have := acc_keep ok k acc [] (ls, cur.length)
    simp only [keep, List.append_nil] at this
    simp only [e, this, offsets, join, keep]
  | cons c r ih =>
    intro D cur acc k i ls h1 h2 h3 h4
    simp only [List.length_cons] at h3
    unfold splitcLoop
    rw [if_neg (by omega)]
    have e : rd (D ++ (cur ++ (c :: r ++ x :: junk))) i = .ok c := by
      rw [← List.append_assoc, List.cons_append, rd_append_right (by simp; omega)]
      simp [h2]
    rw [e]
    simp only [ok_bindE, pure_eq_ok, toInt_inj]
    by_cases hc : c = d
    · subst hc
      simp only [decide_true, if_true]
      rw [← List.append_assoc, List.cons_append, wr_append (by simp; omega)]
      simp only [ok_bindE]
      obtain ⟨pcs, p0, p1, p2, p3, p4⟩ := ih (D ++ cur ++ [0]) [] (if ok k then acc ++ [(ls, i - ls)] else acc) (k + 1)
        (i + 1) (i + 1) (by simp; omega) (by simp; omega) (by omega) (by simp)
      refine ⟨cur :: pcs, by simp, ?_, ?_, by simp [p3], ?_⟩
      · rw [join_cons p0, p1]; simp
      · intro p hp
        rcases List.mem_cons.1 hp with rfl | hp
        · exact h4
        · exact p2 p hp
      · have ee : D ++ cur ++ 0 :: (r ++ x :: junk) = D ++ cur ++ [0] ++ ([] ++ (r ++ x :: junk)) := by simp
        rw [List.length_cons, ee, p4]
        have e2 : i - ls = cur.length := by omega
        have e3 : i + 1 = ls + cur.length + 1 := by omega
        rw [join_cons p0, acc_keep, e2, e3]
        simp [offsets]
    · simp only [hc, decide_false, Bool.false_eq_true, if_false]
      obtain ⟨pcs, p0, p1, p2, p3, p4⟩ := ih D (cur ++ [c]) acc k (i + 1) ls h1 (by simp; omega) (by omega)
        (by simp; exact ⟨h4, fun h => hc h.symm⟩)
      refine ⟨pcs, p0, by simpa using p1, p2, ?_, ?_⟩
      · rw [p3, List.count_cons_of_ne hc]
      · have ee : D ++ (cur ++ (c :: r ++ x :: junk)) = D ++ (cur ++ [c] ++ (r ++ x :: junk)) := by simp
        rw [List.length_cons, ee, p4]

theorem splitcLoop_none (delim : Int) (hd : ∀ c : Byte, c.toInt ≠ delim) (x : Byte) (junk : List Byte)
    (ok : Nat → Bool) (size : Nat) : ∀ (r s : List Byte) (i : Nat), i = s.length → size = i + r.length →
      splitcLoop size delim ok (r.length + 1) i 0 (s ++ (r ++ x :: junk)) [] 0 =
        .ok (s ++ r ++ 0 :: junk, keep ok 0 [(0, (s ++ r).length)]) := by
  intro r
  induction r with
  | nil =>
    intro s i h1 h2
    have hi : i = size := by simpa using h2.symm
    unfold splitcLoop
    rw [if_pos hi]
    simp only [ok_bindE, pure_eq_ok, if_true, List.nil_append]
    rw [wr_append h1]
    simp only [ok_bindE, splitcLoop, List.length_nil, pure_eq_ok, keep, Nat.sub_zero, List.append_nil, h1]
  | cons c r ih =>
    intro s i h1 h2
    simp only [List.length_cons] at h2
    unfold splitcLoop
    rw [if_neg (by omega)]
    have e : rd (s ++ (c :: r ++ x :: junk)) i = .ok c := by
      rw [List.cons_append, rd_append_right (by omega)]
      simp [h1]
    rw [e]
    simp only [ok_bindE, pure_eq_ok, hd c, decide_false, Bool.false_eq_true, if_false]
    have := ih (s ++ [c]) (i + 1) (by simp; omega) (by omega)
    simp only [List.append_assoc, List.cons_append, List.nil_append] at this ⊢
    rw [List.length_cons, this]

theorem zeroed_join {d : Byte} : ∀ {pcs : List (List Byte)}, (∀ p ∈ pcs, d ∉ p) →
    join [0] pcs = (join [d] pcs).map fun c => if c = d then 0 else c
  | [], _ => rfl
  | [x], h => by
    simp only [join]
    conv => lhs; rw [← List.map_id x]
    apply List.map_congr_left
    intro c hc
    have : c ≠ d := fun e => h x (by simp) (e ▸ hc)
    simp [this]
  | x :: y :: ys, h => by
    rw [join_cons (xs := y :: ys) (by simp), join_cons (xs := y :: ys) (by simp), List.map_append, List.map_append,
      zeroed_join (fun p hp => h p (List.mem_cons_of_mem _ hp))]
    congr 2
    · conv => lhs; rw [← List.map_id x]
      apply List.map_congr_left
      intro c hc
      have : c ≠ d := fun e => h x (by simp) (e ▸ hc)
      simp [this]
    · simp

/-- Splitting at a character is determined. -/
theorem join_inj {d : Byte} : ∀ {a b : List (List Byte)}, a ≠ [] → b ≠ [] → (∀ p ∈ a, d ∉ p) → (∀ p ∈ b, d ∉ p) →
    join [d] a = join [d] b → a = b := by
  have key : ∀ (x y r t : List Byte), d ∉ x → d ∉ y → x ++ d :: r = y ++ d :: t → x = y ∧ r = t := by
    intro x
    induction x with
    | nil =>
      intro y r t _ hy h
      cases y with
      | nil => simpa using h
      | cons c y => simp at h; simp [h.1] at hy
    | cons c x ih =>
      intro y r t hx hy h
      cases y with
      | nil => simp at h; simp [← h.1] at hx
      | cons e y =>
        simp at h hx hy
        obtain ⟨h1, h2⟩ := ih y r t hx.2 hy.2 h.2
        exact ⟨by rw [h.1, h1], h2⟩
  intro a
  induction a with
  | nil => intro b h; exact absurd rfl h
  | cons x a ih =>
    intro b _ hb ha hb' h
    cases b with
    | nil => exact absurd rfl hb
    | cons y b =>
      by_cases ha0 : a = []
      · subst ha0
        by_cases hb0 : b = []
        · subst hb0; simpa [join] using h
        · rw [join_cons hb0] at h
          have : d ∈ x := by simp only [join] at h; rw [h]; simp
          exact absurd this (ha x (by simp))
      · by_cases hb0 : b = []
        · subst hb0
          rw [join_cons ha0] at h
          have : d ∈ y := by simp only [join] at h; rw [← h]; simp
          exact absurd this (hb' y (by simp))
        · rw [join_cons ha0, join_cons hb0] at h
          simp only [List.append_assoc, List.cons_append, List.nil_append] at h
          obtain ⟨h1, h2⟩ := key _ _ _ _ (ha x (by simp)) (hb' y (by simp)) h
          rw [h1, ih ha0 hb0 (fun p hp => ha p (by simp [hp])) (fun p hp => hb' p (by simp [hp])) h2]

/-! ### splits -/

theorem split_ne {d s : List Byte} {ps : List (List Byte)} (h : Split d s ps) : ps ≠ [] := by
  cases h <;> simp

theorem split_join {d s : List Byte} {ps : List (List Byte)} (h : Split d s ps) : join d ps = s := by
  induction h with
  | last => rfl
  | cons _ h2 ih => rw [join_cons (split_ne h2), ih]

theorem split_unique {d s : List Byte} {ps qs : List (List Byte)} (h : Split d s ps) (h' : Split d s qs) : ps = qs := by
  induction h generalizing qs with
  | last h =>
    cases h' with
    | last => rfl
    | cons _ _ => exact absurd ⟨_, _, rfl⟩ h
  | cons h1 h2 ih =>
    rename_i p rest ps
    generalize e : p ++ d ++ rest = s at h'
    cases h' with
    | last h => subst e; exact absurd ⟨_, _, rfl⟩ h
    | cons h1' h2' =>
      rename_i p' rest' ps'
      have hl : p.length = p'.length := by
        rcases Nat.lt_trichotomy p.length p'.length with h | h | h
        · exfalso
          apply h1' _ h
          rw [← e]
          simp
        · exact h
        · exfalso
          apply h1 _ h
          rw [e]
          simp
      simp only [List.append_assoc] at e
      obtain ⟨e1, e2⟩ := List.append_inj e hl
      have e3 := List.append_cancel_left e2
      subst e1; subst e3
      rw [ih h2']

theorem splitsLoop_spec (d dj : List Byte) (x : Byte) (junk : List Byte) (ok : Nat → Bool) (size : Nat) (hd : d ≠ [])
    (hsz : size < 2^64) :
    ∀ (n : Nat) (r D cur : List Byte) (acc : List Piece) (k i ls fuel : Nat), r.length ≤ n → ls = D.length → i = D.length + cur.length →
      size = i + r.length → (∀ k, k < cur.length → ¬ d <+: (cur ++ r).drop k) → r.length + 2 ≤ fuel →
      ∃ pcs, Split d (cur ++ r) pcs ∧
        splitsLoop size ⟨d ++ dj, d.length⟩ ok fuel i ls (D ++ (cur ++ (r ++ x :: junk))) acc k =
          .ok (D ++ join (0 :: d.tail) pcs ++ 0 :: junk, acc ++ keep ok k (offsets d.length ls pcs)) := by
  have hd0 : 0 < d.length := List.length_pos_iff.2 hd
  intro n
  induction n with
  | zero =>
    intro r D cur acc k i ls fuel hn h1 h2 h3 h4 hf
    have : r = [] := List.length_eq_zero_iff.1 (by omega)
    subst this
    simp only [List.append_nil, List.length_nil] at h3 h4 hf ⊢
    match fuel, hf with
    | fuel + 2, _ =>
      refine ⟨[cur], .last ?_, ?_⟩
      · intro hi
        obtain ⟨k, hk, hp⟩ := infix_iff.1 hi
        exact h4 k (by omega) hp
      · unfold splitsLoop
        have hh : splitsHit (D ++ (cur ++ ([] ++ x :: junk))) size ⟨d ++ dj, d.length⟩ i = .ok true := by
          unfold splitsHit; rw [if_pos (by omega)]; rfl
        rw [if_pos (by omega), hh]
        simp only [ok_bindE, pure_eq_ok, if_true, List.nil_append]
        rw [← List.append_assoc, wr_append (by simp; omega)]
        simp only [ok_bindE]
        unfold splitsLoop
        rw [if_neg (by omega)]
        have e : i - ls = cur.length := by omega
        have := acc_keep ok k acc [] (ls, cur.length)
        simp only [keep, List.append_nil] at this
        simp only [e, this, offsets, join, keep, pure_eq_ok]
  | succ n ih =>
    intro r D cur acc k i ls fuel hn h1 h2 h3 h4 hf
    by_cases hn' : r.length ≤ n
    · exact ih r D cur acc k i ls fuel hn' h1 h2 h3 h4 hf
    have hn : r.length = n + 1 := by omega
    match fuel, hf with
    | fuel + 1, hf =>
      unfold splitsLoop
      rw [if_pos (by omega)]
      have hh : splitsHit (D ++ (cur ++ (r ++ x :: junk))) size ⟨d ++ dj, d.length⟩ i = .ok (decide (d <+: r)) := by
        unfold splitsHit
        rw [if_neg (by omega)]
        have := here_spec (h := ⟨D ++ (cur ++ (r ++ x :: junk)), size⟩) (n := ⟨d ++ dj, d.length⟩) (x := D ++ cur ++ r)
          (y := d) ⟨by simp; omega, x :: junk, by simp⟩ ⟨rfl, dj, rfl⟩ (by simp; omega) (pos := i) (by simp; omega)
        rw [this]
        have e : (D ++ cur ++ r).drop i = r := by rw [List.drop_append_of_le_length (by simp; omega), List.drop_of_length_le (by simp; omega)]; rfl
        rw [e]
      rw [hh]
      simp only [ok_bindE]
      by_cases hp : d <+: r
      · obtain ⟨rest, rfl⟩ := hp
        rw [if_pos (by simp)]
        simp only [List.length_append] at hn h3 hf
        match d, hd with
        | d0 :: dt, _ =>
          simp only [List.cons_append, List.length_cons, List.tail_cons] at *
          rw [← List.append_assoc, wr_append (by simp; omega)]
          simp only [ok_bindE]
          obtain ⟨pcs, p1, p2⟩ := ih rest (D ++ cur ++ 0 :: dt) [] (if ok k then acc ++ [(ls, i - ls)] else acc) (k + 1)
            (i + (dt.length + 1)) (i + (dt.length + 1)) fuel (by omega) (by simp; omega) (by simp; omega) (by omega)
            (by intro k hk; simp at hk) (by omega)
          refine ⟨cur :: pcs, ?_, ?_⟩
          · have := Split.cons (d := d0 :: dt) (p := cur) (rest := rest) (ps := pcs)
              (by intro k hk; have := h4 k hk; simpa using this) (by simpa using p1)
            simpa using this
          · have ee : D ++ cur ++ 0 :: (dt ++ rest ++ x :: junk) = D ++ cur ++ 0 :: dt ++ ([] ++ (rest ++ x :: junk)) := by simp
            rw [ee, p2]
            have e2 : i - ls = cur.length := by omega
            have e3 : i + (dt.length + 1) = ls + cur.length + (dt.length + 1) := by omega
            rw [join_cons (split_ne p1), acc_keep, e2, e3]
            simp [offsets]
      · rw [if_neg (by simp [hp])]
        match r, hn with
        | c :: r, hn =>
          simp only [List.length_cons] at hn h3 hf
          have e0 : cur ++ [c] ++ r = cur ++ c :: r := by simp
          obtain ⟨pcs, p1, p2⟩ := ih r D (cur ++ [c]) acc k (i + 1) ls fuel (by omega) h1 (by simp; omega) (by omega)
            (by
              intro k hk
              rw [e0]
              simp at hk
              rcases Nat.lt_or_ge k cur.length with h | h
              · exact h4 k h
              · have : k = cur.length := by omega
                subst this
                simpa using hp) (by omega)
          rw [e0] at p1
          refine ⟨pcs, p1, ?_⟩
          have ee : D ++ (cur ++ (c :: r ++ x :: junk)) = D ++ (cur ++ [c] ++ (r ++ x :: junk)) := by simp
          rw [ee, p2]

theorem splits_spec {d dj s junk : List Byte} {x : Byte} (ok : Nat → Bool) (hd : d ≠ []) (hs : s.length < 2^64) {fuel : Nat}
    (hf : s.length + 2 ≤ fuel) : ∃ pcs, Split d s pcs ∧
      splits ⟨s ++ x :: junk, s.length⟩ ⟨d ++ dj, d.length⟩ ok fuel =
        .ok (join (0 :: d.tail) pcs ++ 0 :: junk, keep ok 0 (offsets d.length 0 pcs)) := by
  obtain ⟨pcs, h1, h2⟩ := splitsLoop_spec d dj x junk ok s.length hd hs s.length s [] [] [] 0 0 0 fuel (by omega) rfl rfl
    (by simp) (by intro k hk; simp at hk) hf
  exact ⟨pcs, by simpa using h1, by simpa [splits] using h2⟩

theorem splitsLoop_hang (size : Nat) (dj : List Byte) (ok : Nat → Bool) : ∀ (fuel : Nat) (b : List Byte) (acc : List Piece) (k : Nat),
    0 < b.length → splitsLoop size ⟨dj, 0⟩ ok fuel 0 0 b acc k = .error .hang := by
  intro fuel
  induction fuel with
  | zero => intro b acc k _; rfl
  | succ fuel ih =>
    intro b acc k hb
    unfold splitsLoop
    rw [if_pos (by omega)]
    have : splitsHit b size ⟨dj, 0⟩ 0 = (.ok true : C Bool) := by
      unfold splitsHit
      split
      · rfl
      · unfold here memEq
        simp only
        rw [if_pos (by omega), rdN_ok (by omega), rdN_ok (by omega)]
        simp
    rw [this]
    simp only [ok_bindE, if_true]
    rw [wr_ok hb]
    simp only [ok_bindE]
    exact ih _ _ _ (by simpa using hb)

/-! ### replace -/

theorem replaceLoop_spec {w wj buf : List Byte} : ∀ (ps : List Piece) (cs : List (List Byte)), Slices buf ps cs →
    ∀ (A M B : List Byte) (pos : Nat), pos = A.length → M.length = (join w cs).length →
      replaceLoop buf ⟨w ++ wj, w.length⟩ ps (A ++ M ++ B) pos = .ok (A ++ join w cs ++ B) := by
  intro ps cs h
  induction h with
  | nil =>
    intro A M B pos _ hm
    simp [join] at hm
    simp [replaceLoop, join, hm]
  | cons h1 h2 h3 ih =>
    rename_i p c ps cs
    intro A M B pos hp hm
    obtain ⟨bj, hb⟩ : ∃ bj, buf.drop p.1 = c ++ bj := by
      refine ⟨0 :: (buf.drop p.1).drop (p.2 + 1), ?_⟩
      conv => lhs; rw [← List.take_append_drop (p.2 + 1) (buf.drop p.1), h2]
      simp
    have step1 : ∀ M' B', M'.length = c.length →
        memcpyIf (A ++ M' ++ B') pos (buf.drop p.1) p.2 = (.ok (A ++ c ++ B') : C _) := by
      intro M' B' hl
      unfold memcpyIf
      split
      · rw [hb]; exact memcpy_spec hp h1 hl
      · rename_i hz
        have hz : c.length = 0 := by omega
        rw [List.length_eq_zero_iff.1 hz, List.length_eq_zero_iff.1 (hl.trans hz)]
        simp
    have hps : ps = [] ↔ cs = [] := by cases h3 <;> simp
    unfold replaceLoop
    by_cases hcs : cs = []
    · subst hcs
      have hps' := hps.2 rfl
      subst hps'
      simp only [join] at hm ⊢
      rw [step1 M B hm]
      simp [replaceLoop]
    · rw [join_cons hcs] at hm
      simp only [List.length_append] at hm
      have e : A ++ M ++ B = A ++ M.take c.length ++ (M.drop c.length ++ B) := by
        rw [List.append_assoc A (M.take _), ← List.append_assoc (M.take _), List.take_append_drop]; simp
      rw [e, step1 _ _ (by simp; omega)]
      simp only [ok_bind]
      have hps' : ps ≠ [] := fun h => hcs (hps.1 h)
      by_cases hw : w.length = 0
      · rw [if_neg (by simp [hw]), ← List.append_assoc, ih (A ++ c) _ B _ (by simp [hp, h1]) (by rw [List.length_drop]; omega)]
        rw [join_cons hcs, List.length_eq_zero_iff.1 hw]
        simp
      · rw [if_pos ⟨hps', hw⟩]
        have e2 : A ++ c ++ (M.drop c.length ++ B) = (A ++ c) ++ (M.drop c.length).take w.length ++
            ((M.drop c.length).drop w.length ++ B) := by
          rw [List.append_assoc (A ++ c) (List.take _ _), ← List.append_assoc (List.take _ _), List.take_append_drop]
        rw [e2, memcpy_spec (by simp [hp, h1]) rfl (by rw [List.length_take, List.length_drop]; omega)]
        simp only [ok_bind]
        rw [← List.append_assoc, ih (A ++ c ++ w) _ B _ (by simp [hp, h1]; omega) (by rw [List.length_drop, List.length_drop]; omega)]
        rw [join_cons hcs]
        simp

theorem replace_spec {f : Nat → Byte} {d dj w wj s junk : List Byte} {x : Byte} {fuel : Nat} (hd : d ≠ []) (hs : s.length + 1 < 2^64)
    (hf : s.length + 2 ≤ fuel) (hr : ∀ pcs, Split d s pcs → (join w pcs).length + 17 < 2^64) :
    ∃ pcs, Split d s pcs ∧ replace (some f) ⟨s ++ x :: junk, s.length⟩ ⟨d ++ dj, d.length⟩ ⟨w ++ wj, w.length⟩ fuel =
      .ok (join (0 :: d.tail) pcs ++ 0 :: junk, some ⟨join w pcs ++ [0], (join w pcs).length⟩) := by
  obtain ⟨pcs, h1, h2⟩ := splits_spec (dj := dj) (junk := junk) (x := x) (fun _ => true) hd (by omega) hf
  rw [keep_all (fun _ => rfl)] at h2
  refine ⟨pcs, h1, ?_⟩
  have hr := hr pcs h1
  have hd0 : 0 < d.length := List.length_pos_iff.2 hd
  have hsl := slices_offsets (t := d.tail) (junk := junk) pcs [] 0 rfl
  have hdt : d.tail.length + 1 = d.length := by simp; omega
  rw [hdt, List.nil_append] at hsl
  unfold replace
  rw [h2]
  simp only [ok_bindE]
  have hol : (offsets d.length 0 pcs).length = pcs.length := by
    have : ∀ (cs : List (List Byte)) m n, (offsets m n cs).length = cs.length := by
      intro cs; induction cs with
      | nil => intro m n; rfl
      | cons c cs ih => intro m n; simp [offsets, ih]
    exact this _ _ _
  have j1 := join_length (sep := d) (split_ne h1)
  rw [split_join h1] at j1
  have j2 := join_length (sep := w) (split_ne h1)
  have hne : 0 < pcs.length := List.length_pos_iff.2 (split_ne h1)
  obtain ⟨m, hm⟩ : ∃ m, pcs.length = m + 1 := ⟨pcs.length - 1, by omega⟩
  rw [hm, Nat.add_mul, Nat.one_mul] at j1 j2
  have hle : m ≤ m * d.length := Nat.le_mul_of_pos_right _ hd0
  rw [hol, hm, sztSub_of_le (a := m + 1) (b := 1) (by omega) (by omega), Nat.add_sub_cancel]
  rw [szt_of_lt (n := m * d.length) (by omega), szt_of_lt (n := m * w.length) (by omega),
    sztSub_of_le (by omega) (by omega)]
  have esz : s.length - m * d.length + m * w.length = (join w pcs).length := by omega
  rw [esz, szt_of_lt (by omega)]
  obtain ⟨b, b1, b2⟩ := new_spec (f := f) hr
  rw [b1]
  simp only [ok_bindE]
  have := replaceLoop_spec (w := w) (wj := wj) _ _ hsl [] b [0] 0 rfl b2
  simp only [List.nil_append] at this
  rw [this]
  simp only [ok_bindE, pure_eq_ok]

/-! ### tostring -/

theorem total_eol {eol : List Byte} {l : List SP} {ss : List (List Byte)} (h : HoldsAll l ss) :
    ∀ t, t + (ss.map (· ++ eol)).flatten.length < 2^64 →
      l.foldl (fun r t => szt (r + t.size + eol.length)) t = t + (ss.map (· ++ eol)).flatten.length := by
  induction h with
  | nil => intro t _; simp
  | cons h1 h2 ih =>
    rename_i p s l ss
    intro t ht
    simp only [List.map_cons, List.flatten_cons, List.length_append] at ht ⊢
    simp only [List.foldl_cons]
    rw [h1.1, szt_of_lt (by omega), ih _ (by omega)]
    omega

theorem tostringLoop_spec {eol : List Byte} {l : List SP} {ss : List (List Byte)} (h : HoldsAll l ss) :
    ∀ (A M B : List Byte) (pos : Nat), pos = A.length → M.length = (ss.map (· ++ eol)).flatten.length →
      tostringLoop eol l (A ++ M ++ B) pos = .ok (A ++ (ss.map (· ++ eol)).flatten ++ B) := by
  induction h with
  | nil => intro A M B pos _ hm; simp at hm; simp [tostringLoop, hm]
  | cons h1 h2 ih =>
    rename_i p s l ss
    intro A M B pos hp hm
    obtain ⟨j, rfl⟩ := holds_iff.1 h1
    simp only [List.map_cons, List.flatten_cons, List.length_append] at hm
    have e : A ++ M ++ B = A ++ M.take s.length ++ (M.drop s.length ++ B) := by
      rw [List.append_assoc A (M.take _), ← List.append_assoc (M.take _), List.take_append_drop]; simp
    have step1 : memcpyIf (A ++ M ++ B) pos (s ++ j) s.length = (.ok (A ++ s ++ (M.drop s.length ++ B)) : C _) := by
      unfold memcpyIf
      split
      · rw [e]; exact memcpy_spec hp rfl (by simp; omega)
      · rename_i hz
        have hz : s.length = 0 := by omega
        rw [List.length_eq_zero_iff.1 hz]
        simp
    unfold tostringLoop
    simp only
    rw [step1]
    simp only [ok_bind]
    have e2 : A ++ s ++ (M.drop s.length ++ B) = (A ++ s) ++ (M.drop s.length).take eol.length ++
        ((M.drop s.length).drop eol.length ++ B) := by
      rw [List.append_assoc (A ++ s) (List.take _ _), ← List.append_assoc (List.take _ _), List.take_append_drop]
    rw [e2, wrN_mid (by simp [hp]) (by rw [List.length_take, List.length_drop]; omega)]
    simp only [ok_bind]
    rw [← List.append_assoc, ih (A ++ s ++ eol) _ B _ (by simp [hp]; omega) (by rw [List.length_drop, List.length_drop]; omega)]
    simp

theorem tostring_spec {eol : List Byte} {f : Nat → Byte} {l : List SP} {ss : List (List Byte)} (h : HoldsAll l ss)
    (hb : (ss.map (· ++ eol)).flatten.length + 17 < 2^64) :
    tostringWith eol (some f) l = .ok (some ⟨(ss.map (· ++ eol)).flatten ++ [0], (ss.map (· ++ eol)).flatten.length⟩) := by
  unfold tostringWith
  simp only
  rw [total_eol h 0 (by omega), Nat.zero_add]
  obtain ⟨b, b1, b2⟩ := new_spec (f := f) hb
  rw [b1]
  simp only [ok_bind]
  have := tostringLoop_spec (eol := eol) h [] b [0] 0 rfl b2
  simp only [List.nil_append] at this
  rw [this]
  rfl

theorem lines_join {d : Byte} : ∀ (ss : List (List Byte)), (ss.map (· ++ [d])).flatten = join [d] (ss ++ [[]])
  | [] => rfl
  | s :: ss => by
    rw [List.cons_append, join_cons (by simp), ← lines_join ss]
    simp

/-! ### find -/

theorem findLoop_spec {what : SP} {k : List Byte} (hw : Holds what k) {l : List SP} {ss : List (List Byte)} (h : HoldsAll l ss) :
    ∀ i, (∃ n : Nat, findLoop what l i = .ok (some (i + n)) ∧ ss[n]? = some k ∧ ∀ m < n, ss[m]? ≠ some k) ∨
      (findLoop what l i = .ok none ∧ k ∉ ss) := by
  induction h with
  | nil => intro i; right; exact ⟨rfl, by simp⟩
  | cons h1 h2 ih =>
    rename_i p s l ss
    intro i
    unfold findLoop
    rw [eq_spec hw h1]
    simp only [ok_bindE]
    by_cases hk : k = s
    · left
      exact ⟨0, by simp [hk], by simp [hk], by intro m hm; omega⟩
    · simp only [hk, decide_false, Bool.false_eq_true, if_false]
      rcases ih (i + 1) with ⟨n, a, b, c⟩ | ⟨a, b⟩
      · left
        refine ⟨n + 1, by rw [a]; congr 2; omega, by simpa using b, fun m hm => ?_⟩
        cases m with
        | zero => simp; exact fun e => hk e.symm
        | succ m => simpa using c m (by omega)
      · right
        exact ⟨a, by simp [hk, b]⟩

/-! ### dup_entries, freestrings -/

theorem dupLoop_spec {l : List SP} {ss : List (List Byte)} (h : HoldsAll l ss) (hb : ∀ s ∈ ss, s.length + 1 < 2^64)
    (a : Nat → Alloc) : ∀ i, ∃ n, n ≤ l.length ∧ (∀ j < n, (a (i + j)).isSome) ∧
      dupLoop l a i = .ok ((ss.take n).map (fun s => ⟨s ++ [0], s.length⟩) ++ l.drop n,
        if n = l.length then none else some (i + n)) ∧
      (n < l.length → a (i + n) = none) := by
  induction h with
  | nil => intro i; exact ⟨0, by simp, by intro j hj; omega, rfl, by simp⟩
  | cons h1 h2 ih =>
    rename_i p s l ss
    intro i
    obtain ⟨j, rfl⟩ := holds_iff.1 h1
    unfold dupLoop
    cases ha : a i with
    | none =>
      refine ⟨0, by simp, by intro j hj; omega, ?_, by simp [ha]⟩
      simp [strdup, malloc, realloc]
    | some f =>
      rw [strdup_spec (hb s (by simp))]
      simp only [ok_bind]
      obtain ⟨n, n1, n2, n3, n4⟩ := ih (fun t ht => hb t (by simp [ht])) (i + 1)
      refine ⟨n + 1, by simp; omega, ?_, ?_, ?_⟩
      · intro j hj
        cases j with
        | zero => simp [ha]
        | succ j => have := n2 j (by omega); rwa [show i + (j + 1) = i + 1 + j by omega]
      · rw [n3]
        simp only [ok_bind, pure_eq_ok, List.take_succ_cons, List.map_cons, List.drop_succ_cons, List.length_cons,
          Nat.add_right_cancel_iff, List.cons_append]
        rw [show i + (n + 1) = i + 1 + n by omega]
      · intro hn
        have := n4 (by simp at hn; omega)
        rwa [show i + (n + 1) = i + 1 + n by omega]

end Ulz.Stringptr
