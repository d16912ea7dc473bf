import Verif.Proofs.Stringptrlist
import Verif.Proofs.Sblist
import Verif.Proofs.Frame
/-! Lemmas about computed sizes that do not fit: what must have fit when a call was not an error. -/
namespace Ulz.Sizes
open Ulz.Stringptr Ulz.Stringptr.Spec

theorem szt_lt (n : Nat) : szt n < 2 ^ 64 := Nat.mod_lt _ (by decide)

theorem new_fits {f : Nat → Byte} {n : Nat} {r : Option SP} (hn : n < 2 ^ 64) (h : new (some f) n = .ok r) :
    n + 17 < 2 ^ 64 ∧ ∃ b, r = some ⟨b, n⟩ ∧ b.length = n + 1 := by
  by_cases hl : n + 17 < 2 ^ 64
  · obtain ⟨b, e, hb⟩ := new_spec (f := f) hl
    rw [e] at h
    exact ⟨hl, b ++ [0], (Except.ok.inj h).symm, by simp [hb]⟩
  · exfalso
    obtain ⟨o, h1, h2⟩ := malloc_some (f := f) (n := szt (16 + n + 1))
    have : szt (16 + n + 1) < 17 := by unfold szt; omega
    unfold new at h
    rw [h1] at h
    simp only at h
    unfold wr at h
    rw [if_neg (by simp; omega)] at h
    cases h

theorem wrN_fits {b xs b' : List Byte} {i : Nat} (h : wrN b i xs = .ok b') : i + xs.length ≤ b.length ∧ b'.length = b.length := by
  unfold wrN at h
  split at h
  · obtain rfl := Except.ok.inj h
    exact ⟨‹_›, put_length ‹_›⟩
  · cases h

theorem rdN_len {b x : List Byte} {i n : Nat} (h : rdN b i n = .ok x) : x.length = n := by
  unfold rdN at h
  split at h
  · obtain rfl := Except.ok.inj h
    simp
    omega
  · cases h

theorem memcpy_fits {d s d' : List Byte} {i n : Nat} (h : memcpy d i s n = .ok d') : i + n ≤ d.length ∧ d'.length = d.length := by
  obtain ⟨x, h1, h2⟩ := Frame.bind_ok.1 h
  have := wrN_fits h2
  rw [rdN_len h1] at this
  exact this

theorem holdsAll_len {l : List SP} {ss : List (List Byte)} (h : HoldsAll l ss) : (l.map SP.size).sum = ss.flatten.length := by
  induction h with
  | nil => rfl
  | cons h1 _ ih => simp [h1.1, ih]

/-! ### concat -/

theorem total_mod (l : List SP) : ∀ t, t < 2 ^ 64 → l.foldl (fun t s => szt (t + s.size)) t = szt (t + (l.map SP.size).sum) := by
  induction l with
  | nil => intro t h; simp [szt_of_lt h]
  | cons p l ih =>
    intro t _
    rw [List.foldl_cons, ih _ (szt_lt _), List.map_cons, List.sum_cons]
    unfold szt
    omega

theorem concatLoop_fits : ∀ (l : List SP) (dst : List Byte) (pos : Nat) (r : List Byte), pos ≤ dst.length → concatLoop dst pos l = .ok r →
    pos + (l.map SP.size).sum ≤ dst.length := by
  intro l
  induction l with
  | nil => intro dst pos r hp _; simpa using hp
  | cons p l ih =>
    intro dst pos r hp h
    obtain ⟨d, h1, h2⟩ := Frame.bind_ok.1 h
    obtain ⟨f1, f2⟩ := memcpy_fits h1
    have := ih d (pos + p.size) r (by omega) h2
    rw [List.map_cons, List.sum_cons]
    omega

theorem concat_fits {f : Nat → Byte} {p : SP} {l : List SP} {s : List Byte} {ss : List (List Byte)} (hp : Holds p s) (hl : HoldsAll l ss)
    {r : Option SP} (h : concat (some f) p l = .ok r) : (s ++ ss.flatten).length + 17 < 2 ^ 64 := by
  unfold concat at h
  simp only at h
  have hs := holdsAll_len (.cons hp hl)
  rw [total_mod _ 0 (by decide), Nat.zero_add, hs] at h
  obtain ⟨o, h1, h2⟩ := Frame.bind_ok.1 h
  obtain ⟨e1, b, rfl, e2⟩ := new_fits (szt_lt _) h1
  simp only at h2
  obtain ⟨b', h3, _⟩ := Frame.bind_ok.1 h2
  have := concatLoop_fits _ _ _ _ (by omega) h3
  rw [hs, e2] at this
  rw [List.flatten_cons] at *
  unfold szt at *
  omega

/-! ### tostring -/

theorem total_eol_mod (e : Nat) (l : List SP) : ∀ t, t < 2 ^ 64 →
    l.foldl (fun r t => szt (r + t.size + e)) t = szt (t + (l.map fun p => p.size + e).sum) := by
  induction l with
  | nil => intro t h; simp [szt_of_lt h]
  | cons p l ih =>
    intro t _
    rw [List.foldl_cons, ih _ (szt_lt _), List.map_cons, List.sum_cons]
    unfold szt
    omega

theorem memcpyIf_fits {d s d' : List Byte} {i n : Nat} (h : memcpyIf d i s n = .ok d') : (n = 0 ∨ i + n ≤ d.length) ∧ d'.length = d.length := by
  unfold memcpyIf at h
  split at h
  · exact ⟨.inr (memcpy_fits h).1, (memcpy_fits h).2⟩
  · obtain rfl := Except.ok.inj h
    exact ⟨.inl (by omega), rfl⟩

theorem tostringLoop_fits (eol : List Byte) : ∀ (l : List SP) (res : List Byte) (pos : Nat) (r : List Byte), pos ≤ res.length →
    tostringLoop eol l res pos = .ok r → pos + (l.map fun p => p.size + eol.length).sum ≤ res.length := by
  intro l
  induction l with
  | nil => intro dst pos r hp _; simpa using hp
  | cons p l ih =>
    intro dst pos r hp h
    unfold tostringLoop at h
    obtain ⟨d, h1, h2⟩ := Frame.bind_ok.1 h
    obtain ⟨d2, h3, h4⟩ := Frame.bind_ok.1 h2
    obtain ⟨_, f2⟩ := memcpyIf_fits h1
    obtain ⟨g1, g2⟩ := wrN_fits h3
    have := ih d2 _ r (by omega) h4
    rw [List.map_cons, List.sum_cons]
    omega

theorem eol_len {eol : List Byte} {l : List SP} {ss : List (List Byte)} (h : HoldsAll l ss) :
    (l.map fun p => p.size + eol.length).sum = (ss.map (· ++ eol)).flatten.length := by
  induction h with
  | nil => rfl
  | cons h1 _ ih =>
    rw [List.map_cons, List.sum_cons, ih, h1.1, List.map_cons, List.flatten_cons, List.length_append, List.length_append]

theorem tostring_fits {eol : List Byte} {f : Nat → Byte} {l : List SP} {ss : List (List Byte)} (hl : HoldsAll l ss)
    {r : Option SP} (h : tostringWith eol (some f) l = .ok r) : (ss.map (· ++ eol)).flatten.length + 17 < 2 ^ 64 := by
  unfold tostringWith at h
  simp only at h
  rw [total_eol_mod _ _ 0 (by decide), Nat.zero_add] at h
  have hs := eol_len (eol := eol) hl
  rw [hs] at h
  obtain ⟨o, h1, h2⟩ := Frame.bind_ok.1 h
  obtain ⟨e1, b, rfl, e2⟩ := new_fits (szt_lt _) h1
  simp only at h2
  obtain ⟨b', h3, _⟩ := Frame.bind_ok.1 h2
  have := tostringLoop_fits _ _ _ _ _ (by omega) h3
  rw [hs, e2] at this
  unfold szt at *
  omega

/-! ### replace -/

theorem slices_len {buf : List Byte} {ps : List Piece} {cs : List (List Byte)} (h : Slices buf ps cs) : ps.length = cs.length := by
  induction h with
  | nil => rfl
  | cons _ _ _ ih => simp [ih]

theorem replaceLoop_fits {buf w : List Byte} {whit : SP} (hw : whit.size = w.length) : ∀ (ps : List Piece) (cs : List (List Byte)), Slices buf ps cs →
    ∀ (res : List Byte) (pos : Nat) (r : List Byte), replaceLoop buf whit ps res pos = .ok r →
      (join w cs).length = 0 ∨ pos + (join w cs).length ≤ res.length := by
  intro ps cs h
  induction h with
  | nil => intro res pos r _; exact .inl rfl
  | @cons p c ps cs hp _ hs ih =>
    intro res pos r h
    unfold replaceLoop at h
    obtain ⟨d, h1, h2⟩ := Frame.bind_ok.1 h
    obtain ⟨f1, f2⟩ := memcpyIf_fits h1
    have hlen := slices_len hs
    by_cases hc : cs = []
    · have : ps = [] := List.length_eq_zero_iff.1 (by rw [hlen, hc]; rfl)
      subst hc
      simp only [join]
      omega
    · have hne : ps ≠ [] := by
        intro e
        rw [e] at hlen
        exact hc (List.length_eq_zero_iff.1 hlen.symm)
      rw [join_cons hc, List.length_append, List.length_append]
      by_cases hz : whit.size ≠ 0
      · rw [if_pos ⟨hne, hz⟩] at h2
        obtain ⟨d2, h3, h4⟩ := Frame.bind_ok.1 h2
        obtain ⟨g1, g2⟩ := memcpy_fits h3
        have := ih d2 _ r h4
        omega
      · rw [if_neg (fun h => hz h.2)] at h2
        have := ih d _ r h2
        omega

theorem replace_fits {f : Nat → Byte} {d dj w wj s junk : List Byte} {x : Byte} {fuel : Nat} (hd : d ≠ []) (hs : s.length + 1 < 2 ^ 64)
    (hf : s.length + 2 ≤ fuel) {pcs : List (List Byte)} (hp : Split d s pcs) {r : List Byte × Option SP}
    (h : replace (some f) ⟨s ++ x :: junk, s.length⟩ ⟨d ++ dj, d.length⟩ ⟨w ++ wj, w.length⟩ fuel = .ok r) :
    (join w pcs).length + 17 < 2 ^ 64 := by
  obtain ⟨pcs', h1, h2⟩ := splits_spec (dj := dj) (junk := junk) (x := x) (fun _ => true) hd (by omega) hf
  obtain rfl := split_unique hp h1
  rw [keep_all (fun _ => rfl)] at h2
  have hd0 : 0 < d.length := List.length_pos_iff.2 hd
  have hsl := slices_offsets (t := d.tail) (junk := junk) pcs [] 0 rfl
  have hdt : d.tail.length + 1 = d.length := by simp; omega
  rw [hdt, List.nil_append] at hsl
  unfold replace at h
  rw [h2] at h
  simp only [ok_bindE] at h
  have hol := slices_len hsl
  have j1 := join_length (sep := d) (split_ne h1)
  rw [split_join h1] at j1
  have j2 := join_length (sep := w) (split_ne h1)
  have hne : 0 < pcs.length := List.length_pos_iff.2 (split_ne h1)
  obtain ⟨m, hm⟩ : ∃ m, pcs.length = m + 1 := ⟨pcs.length - 1, by omega⟩
  rw [hm, Nat.add_mul, Nat.one_mul] at j1 j2
  have hle : m ≤ m * d.length := Nat.le_mul_of_pos_right _ hd0
  rw [hol, hm, sztSub_of_le (a := m + 1) (b := 1) (by omega) (by omega), Nat.add_sub_cancel] at h
  rw [szt_of_lt (n := m * d.length) (by omega), sztSub_of_le (by omega) (by omega)] at h
  have esz : szt (s.length - m * d.length + szt (m * w.length)) = szt (join w pcs).length := by
    have : (join w pcs).length = s.length - m * d.length + m * w.length := by omega
    rw [this]
    unfold szt
    omega
  rw [esz] at h
  obtain ⟨o, h3, h4⟩ := Frame.bind_ok.1 h
  obtain ⟨e1, b, rfl, e2⟩ := new_fits (szt_lt _) h3
  simp only at h4
  obtain ⟨b', h5, _⟩ := Frame.bind_ok.1 h4
  have := replaceLoop_fits (w := w) rfl _ _ hsl _ _ _ h5
  rw [e2] at this
  unfold szt at *
  omega

/-! ### sblist -/

open Ulz.Sblist in
theorem addAll_iff (f : Nat → Byte) (isz : Nat) : ∀ (xs : List (List Byte)), (∀ x ∈ xs, x.length = isz) →
    ∀ (l : SB), l.itemsize = isz → l.count * isz ≤ l.items.length → l.items.length < 2 ^ 64 → l.count + xs.length ≤ l.capa →
      ((∃ r, run l (xs.map fun x => .add x (some f)) = .ok r) ↔ (l.count + xs.length) * isz ≤ l.items.length) := by
  intro xs
  induction xs with
  | nil =>
    intro _ l _ h1 _ _
    exact ⟨fun _ => by simpa using h1, fun _ => ⟨_, rfl⟩⟩
  | cons x xs ih =>
    intro hx l hi h1 h2 h3
    simp only [List.length_cons] at h3
    have hxl : x.length = isz := hx x (List.mem_cons_self ..)
    have e1 : add (some f) l x = (wrN l.items (l.count * isz) x >>= fun it => .ok ({ l with count := l.count + 1, items := it }, 1)) := by
      unfold add grow_if_needed
      rw [if_neg (by omega)]
      simp only [Nat.add_sub_cancel]
      rw [if_neg (by decide)]
      unfold Sblist.set
      simp only
      rw [if_neg (by omega), hi, show rdN x 0 isz = .ok x from by unfold rdN; rw [if_pos (by omega)]; simp [← hxl]]
      rw [szt_of_lt (by omega)]
      rfl
    have hm : (l.count + 1) * isz = l.count * isz + isz := by rw [Nat.add_mul, Nat.one_mul]
    by_cases hfit : l.count * isz + isz ≤ l.items.length
    · have e2 : wrN l.items (l.count * isz) x = .ok (put l.items (l.count * isz) x) := by
        unfold wrN; rw [if_pos (by omega)]
      rw [e2, ok_bind] at e1
      have hpl : (put l.items (l.count * isz) x).length = l.items.length := put_length (by omega)
      have := ih (fun y hy => hx y (List.mem_cons_of_mem _ hy)) { l with count := l.count + 1, items := put l.items (l.count * isz) x } hi
        (by simp only [hpl]; omega) (by simpa only [hpl] using h2) (by simp only; omega)
      simp only [hpl] at this
      rw [List.length_cons, show l.count + (xs.length + 1) = l.count + 1 + xs.length by omega, ← this]
      rw [List.map_cons, run, step, e1]
      simp only [ok_bind, pure_eq_ok]
      constructor
      · rintro ⟨r, h⟩
        obtain ⟨y, h5, _⟩ := Frame.bind_ok.1 h
        exact ⟨y, h5⟩
      · rintro ⟨r, h⟩
        rw [h]
        exact ⟨_, rfl⟩
    · have e2 : wrN l.items (l.count * isz) x = .error .oobWrite := by
        unfold wrN; rw [if_neg (by omega)]
      rw [e2] at e1
      rw [List.map_cons, run, step, e1]
      constructor
      · rintro ⟨r, h⟩
        cases h
      · intro h
        exfalso
        rw [List.length_cons, show l.count + (xs.length + 1) = l.count + 1 + xs.length by omega, Nat.add_mul] at h
        omega

end Ulz.Sizes
