import Verif.Proofs.Flood
/-! # C202: texts with the same hash -/
namespace Ulz.Props
open Ulz.Stringptr Ulz.Stringptr.Spec

/-- **C202** Texts with the same hash keep it when the same text is appended to both. -/
theorem stringptr_hash_extend (w : Nat) (hw : w = 32 ∨ w = 64) (s t u : List Byte) (p q p' q' : SP) (hp : Holds p s) (hq : Holds q t)
    (hp' : Holds p' (s ++ u)) (hq' : Holds q' (t ++ u)) (h : Stringptr.hash w p = Stringptr.hash w q) :
    Stringptr.hash w p' = Stringptr.hash w q' := by
  rw [hash_spec hw hp, hash_spec hw hq] at h
  rw [hash_spec hw hp', hash_spec hw hq', Flood.elfHash_append, Flood.elfHash_append]
  have h' := congrArg BitVec.toNat (Except.ok.inj h)
  have h1 := Flood.elfHash_lt s
  have h2 := Flood.elfHash_lt t
  simp only [BitVec.toNat_ofNat] at h'
  rw [Nat.mod_eq_of_lt (by omega), Nat.mod_eq_of_lt (by omega)] at h'
  rw [h']

/-- **C202** Anywhere in a text, two adjacent bytes can be replaced without changing the hash: the first by the next one (unless its lower
    four bits are all set), the second by the one sixteen below. -/
theorem stringptr_hash_swap (w : Nat) (hw : w = 32 ∨ w = 64) (pre suf : List Byte) (a b a' b' : Byte) (ha : a.toNat % 16 ≠ 15)
    (h1 : a'.toNat = a.toNat + 1) (h2 : b.toNat = b'.toNat + 16) (p q : SP) (hp : Holds p (pre ++ a :: b :: suf))
    (hq : Holds q (pre ++ a' :: b' :: suf)) : Stringptr.hash w p = Stringptr.hash w q := by
  rw [hash_spec hw hp, hash_spec hw hq, Flood.elfHash_swap pre suf a b a' b' ha h1 h2]

example : Stringptr.hash 64 ⟨bytes! "xAay", 4⟩ = Stringptr.hash 64 ⟨bytes! "xBQy", 4⟩ ∧
    Stringptr.hash 64 ⟨bytes! "xAay", 4⟩ ≠ Stringptr.hash 64 ⟨bytes! "xBay", 4⟩ := by decide +kernel

/-- **C202** Whatever stands before and after, there are `2 ^ n` different texts of `2 * n` letters in between, all with the same hash. -/
theorem stringptr_hash_flood (w : Nat) (hw : w = 32 ∨ w = 64) (n : Nat) (pre suf : List Byte) :
    ∃ L : List (List Byte), L.Nodup ∧ L.length = 2 ^ n ∧
      (∀ s ∈ L, ∃ m, s = pre ++ m ++ suf ∧ m.length = 2 * n ∧ ∀ c ∈ m, c ∈ bytes! "ABQa") ∧
      ∃ v, ∀ s ∈ L, ∀ p, Holds p s → Stringptr.hash w p = .ok v := by
  obtain ⟨t, ht⟩ : ∃ t, t ∈ Flood.blocks n := by
    have := Flood.blocks_length n
    match h : Flood.blocks n with
    | [] => rw [h] at this; simp at this; have := Nat.pow_pos (n := n) (show 0 < 2 by decide); omega
    | t :: _ => exact ⟨t, by simp⟩
  refine ⟨(Flood.blocks n).map fun m => pre ++ m ++ suf, ?_, by rw [List.length_map, Flood.blocks_length], ?_,
    BitVec.ofNat 32 (elfHash (pre ++ t ++ suf)), ?_⟩
  · refine (Flood.blocks_nodup n).map fun a b h => ?_
    exact List.append_cancel_left (List.append_cancel_right h)
  · intro s hs
    obtain ⟨m, hm, rfl⟩ := List.mem_map.1 hs
    obtain ⟨h1, h2⟩ := Flood.blocks_size n m hm
    refine ⟨m, rfl, h1, fun c hc => ?_⟩
    have := h2 c hc
    simp only [List.mem_cons, List.not_mem_nil, or_false] at this
    rcases this with rfl | rfl | rfl | rfl <;> decide
  · intro s hs p hp
    obtain ⟨m, hm, rfl⟩ := List.mem_map.1 hs
    rw [hash_spec hw hp, Flood.blocks_hash n pre suf m hm t ht]

example : ∃ L : List (List Byte), L.length = 1024 ∧ L.Nodup ∧ ∃ v, ∀ s ∈ L, ∀ p, Holds p s → Stringptr.hash 64 p = .ok v := by
  obtain ⟨L, h1, h2, _, h3⟩ := stringptr_hash_flood 64 (.inr rfl) 10 (bytes! "key_") []
  exact ⟨L, h2, h1, h3⟩

/-- **C202** Each of the 2^28 possible values is the hash of exactly one text of seven of the letters `@` to `O`. -/
theorem stringptr_hash_seven (w : Nat) (hw : w = 32 ∨ w = 64) (v : BitVec 32) (hv : v.toNat < 2 ^ 28) :
    ∃ s : List Byte, (s.length = 7 ∧ (∀ c ∈ s, ch '@' ≤ c ∧ c ≤ ch 'O') ∧ ∀ p, Holds p s → Stringptr.hash w p = .ok v) ∧
      ∀ t : List Byte, t.length = 7 → (∀ c ∈ t, ch '@' ≤ c ∧ c ≤ ch 'O') → (∀ p, Holds p t → Stringptr.hash w p = .ok v) → t = s := by
  have hA : (ch '@').toNat = 64 := by decide
  have hO : (ch 'O').toNat = 79 := by decide
  have form : ∀ t : List Byte, t.length = 7 → (∀ c ∈ t, ch '@' ≤ c ∧ c ≤ ch 'O') → ∃ (c : Fin 7 → Byte) (n : Fin 7 → Nat),
      t = [c 0, c 1, c 2, c 3, c 4, c 5, c 6] ∧ (∀ i, n i < 16) ∧ ∀ i, (c i).toNat = 64 + n i := by
    intro t ht hc
    match t, ht with
    | [a, b, c, d, e, f, g], _ =>
      have hm : ∀ i : Fin 7, [a, b, c, d, e, f, g][i] ∈ [a, b, c, d, e, f, g] := fun i => List.getElem_mem _
      refine ⟨fun i => [a, b, c, d, e, f, g][i], fun i => [a, b, c, d, e, f, g][i].toNat - 64, rfl, fun i => ?_, fun i => ?_⟩
      · have h := hc _ (hm i)
        have h1 : (ch '@').toNat ≤ _ := BitVec.le_def.1 h.1
        have h2 : _ ≤ (ch 'O').toNat := BitVec.le_def.1 h.2
        rw [hA] at h1
        rw [hO] at h2
        dsimp only
        omega
      · have h := hc _ (hm i)
        have h1 : (ch '@').toNat ≤ _ := BitVec.le_def.1 h.1
        rw [hA] at h1
        dsimp only
        omega
  obtain ⟨r, hr, hl⟩ := Flood.last_surj hv
  obtain ⟨N, hN, hNr⟩ : ∃ N < 2 ^ 28, (N + 0x44444440) % 2 ^ 28 = r := by
    refine ⟨(r + 2 ^ 31 - 0x44444440) % 2 ^ 28, Nat.mod_lt _ (by decide), by omega⟩
  let n : Fin 7 → Nat := fun i => N / 16 ^ (6 - i.val) % 16
  have hn : ∀ i, n i < 16 := fun i => Nat.mod_lt _ (by decide)
  have hNn : 16 * (16 * (16 * (16 * (16 * (16 * n 0 + n 1) + n 2) + n 3) + n 4) + n 5) + n 6 = N := by
    show 16 * (16 * (16 * (16 * (16 * (16 * (N / 16 ^ 6 % 16) + N / 16 ^ 5 % 16) + N / 16 ^ 4 % 16) + N / 16 ^ 3 % 16) +
      N / 16 ^ 2 % 16) + N / 16 ^ 1 % 16) + N / 16 ^ 0 % 16 = N
    omega
  let c : Fin 7 → Byte := fun i => BitVec.ofNat 8 (64 + n i)
  have hc : ∀ i, (c i).toNat = 64 + n i := by
    intro i
    have := hn i
    show (BitVec.ofNat 8 (64 + n i)).toNat = _
    rw [BitVec.toNat_ofNat]; omega
  have hval : elfHash [c 0, c 1, c 2, c 3, c 4, c 5, c 6] = v.toNat := by
    rw [Flood.seven n hn hc, hNn, hNr, hl]
  refine ⟨[c 0, c 1, c 2, c 3, c 4, c 5, c 6], ⟨rfl, ?_, ?_⟩, ?_⟩
  · intro x hx
    have hx' : ∃ i, x = c i := by
      simp only [List.mem_cons, List.not_mem_nil, or_false] at hx
      rcases hx with h | h | h | h | h | h | h
      exacts [⟨_, h⟩, ⟨_, h⟩, ⟨_, h⟩, ⟨_, h⟩, ⟨_, h⟩, ⟨_, h⟩, ⟨_, h⟩]
    obtain ⟨i, rfl⟩ := hx'
    have h1 := hn i
    have h2 := hc i
    rw [BitVec.le_def, BitVec.le_def, hA, hO]
    omega
  · intro p hp
    rw [hash_spec hw hp, hval]; simp
  · intro t ht htc hth
    obtain ⟨c', n', rfl, hn', hc'⟩ := form t ht htc
    have h1 := hth ⟨[c' 0, c' 1, c' 2, c' 3, c' 4, c' 5, c' 6], 7⟩ ⟨rfl, List.prefix_rfl⟩
    rw [hash_spec hw (s := [c' 0, c' 1, c' 2, c' 3, c' 4, c' 5, c' 6]) ⟨rfl, List.prefix_rfl⟩, Flood.seven n' hn' hc'] at h1
    have h2 := congrArg BitVec.toNat (Except.ok.inj h1)
    rw [BitVec.toNat_ofNat, Nat.mod_eq_of_lt (by
      have := Flood.last_lt (r := (16 * (16 * (16 * (16 * (16 * (16 * n' 0 + n' 1) + n' 2) + n' 3) + n' 4) + n' 5) + n' 6 + 0x44444440) % 2 ^ 28)
        (Nat.mod_lt _ (by decide))
      omega), ← hl] at h2
    have h3 := Flood.last_inj h2
    have e : ∀ i, n' i = n i := by
      have k0 := hn' 0
      have k1 := hn' 1
      have k2 := hn' 2
      have k3 := hn' 3
      have k4 := hn' 4
      have k5 := hn' 5
      have k6 := hn' 6
      have hN' : 16 * (16 * (16 * (16 * (16 * (16 * n' 0 + n' 1) + n' 2) + n' 3) + n' 4) + n' 5) + n' 6 = N := by omega
      intro i
      show n' i = N / 16 ^ (6 - i.val) % 16
      match i with
      | 0 => show n' 0 = N / 16 ^ 6 % 16; omega
      | 1 => show n' 1 = N / 16 ^ 5 % 16; omega
      | 2 => show n' 2 = N / 16 ^ 4 % 16; omega
      | 3 => show n' 3 = N / 16 ^ 3 % 16; omega
      | 4 => show n' 4 = N / 16 ^ 2 % 16; omega
      | 5 => show n' 5 = N / 16 ^ 1 % 16; omega
      | 6 => show n' 6 = N / 16 ^ 0 % 16; omega
    have ec : ∀ i, c' i = c i := fun i => BitVec.eq_of_toNat_eq (by rw [hc', hc, e])
    rw [ec 0, ec 1, ec 2, ec 3, ec 4, ec 5, ec 6]

/-- **C202** (negative) A hash list can be made to degenerate: for every number of buckets, `2 ^ n` different texts can be added under
    their hashes so that all values are in one bucket and the other buckets hold nothing. -/
theorem hashlist_flooded (N ds n : Nat) (hN : 0 < N) (hds : 0 < ds) (hb : (2 ^ n + 8) * ds < 2 ^ 64) (value : List Byte → List Byte)
    (hv : ∀ s, (value s).length = ds) (f : Nat → Byte) :
    ∃ (L : List (List Byte)) (key : BitVec 32), L.Nodup ∧ L.length = 2 ^ n ∧
      (∀ s ∈ L, ∀ p, Holds p s → Stringptr.hash 64 p = .ok key) ∧
      ∃ h rs, Hashlist.run (Hashlist.new N ds) (L.map fun s => ⟨key, value s, true, some f⟩) = .ok (h, rs) ∧ (∀ r ∈ rs, r = 0) ∧
        (∃ l, Hashlist.get h key = .ok (some l) ∧ l.count = 2 ^ n ∧ ∀ i, Sblist.content l (Sblist.get l i) = .ok ((L.map value)[i]?)) ∧
        ∀ k : BitVec 32, k.toNat % N ≠ key.toNat % N →
          Hashlist.get h k = .ok none ∨ ∃ l, Hashlist.get h k = .ok (some l) ∧ l.count = 0 := by
  obtain ⟨L, hL1, hL2, -, key, hkey⟩ := stringptr_hash_flood 64 (.inr rfl) n [] []
  refine ⟨L, key, hL1, hL2, hkey, ?_⟩
  obtain ⟨h, rs, G, hrun, hst, hget⟩ := hashlist_get_correct N ds hN hds (L.map fun s => ⟨key, value s, true, some f⟩)
    (by rw [List.length_map, hL2]; exact hb) (by
      intro c hc
      obtain ⟨s, _, rfl⟩ := List.mem_map.1 hc
      exact hv s)
  have hall : ∀ (L : List (List Byte)) (G0 G : Hashlist.Spec.Log) (rs : List Int),
      Hashlist.Spec.Steps N G0 (L.map fun s => ⟨key, value s, true, some f⟩) G rs →
      G = G0 ++ L.map (fun s => (key, value s)) ∧ ∀ r ∈ rs, r = 0 := by
    intro L
    induction L with
    | nil => intro G0 G rs h; cases h; simp
    | cons s L ih =>
      intro G0 G rs h
      cases h with
      | cons h1 h2 =>
        obtain ⟨e1, e2⟩ := ih _ _ _ h2
        cases h1 with
        | stored => exact ⟨by rw [e1]; simp, fun r hr => by
            rcases List.mem_cons.1 hr with h | h
            · exact h
            · exact e2 r h⟩
        | noItems h => simp at h
        | noHeader h => simp at h
  obtain ⟨hG, hz⟩ := hall L [] G rs hst
  rw [List.nil_append] at hG
  have hm : ∀ k : BitVec 32, Hashlist.Spec.matching N G k = if k.toNat % N = key.toNat % N then L.map value else [] := by
    intro k
    rw [hG, Hashlist.Spec.matching]
    split
    · rename_i h
      rw [List.filter_eq_self.2, List.map_map]
      · rfl
      · intro e he
        obtain ⟨s, _, rfl⟩ := List.mem_map.1 he
        simp [h]
    · rename_i h
      rw [List.filter_eq_nil_iff.2]
      · rfl
      · intro e he
        obtain ⟨s, _, rfl⟩ := List.mem_map.1 he
        simp only [decide_eq_true_eq]
        exact fun h' => h h'.symm
  refine ⟨h, rs, hrun, hz, ?_, ?_⟩
  · obtain ⟨b, h1, h2⟩ := hget key
    rw [hm, if_pos rfl] at h2
    match b, h1, h2 with
    | none, _, h2 =>
      have := congrArg List.length h2
      rw [List.length_map, hL2] at this
      have := Nat.pow_pos (n := n) (show 0 < 2 by decide)
      simp at *
    | some l, h1, h2 => exact ⟨l, h1, by rw [h2.1, List.length_map, hL2], h2.2⟩
  · intro k hk
    obtain ⟨b, h1, h2⟩ := hget k
    rw [hm, if_neg hk] at h2
    match b, h1, h2 with
    | none, h1, _ => exact .inl h1
    | some l, h1, h2 => exact .inr ⟨l, h1, h2.1⟩

example : ∃ L : List (List Byte), L.length = 4096 ∧ L.Nodup ∧ ∃ (key : BitVec 32) (h : Hashlist.HL) (l : Sblist.SB),
    (∀ s ∈ L, ∀ p, Holds p s → Stringptr.hash 64 p = .ok key) ∧ Hashlist.get h key = .ok (some l) ∧ l.count = 4096 := by
  obtain ⟨L, key, h1, h2, h3, h, rs, _, _, ⟨l, h4, h5, _⟩, _⟩ := hashlist_flooded 1024 1 12 (by decide) (by decide) (by decide)
    (fun _ => [0]) (fun _ => rfl) (fun _ => 0)
  exact ⟨L, h2, h1, key, h, l, h3, h4, h5⟩

end Ulz.Props
