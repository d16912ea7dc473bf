import Verif.Spec.Kvmem
import Verif.Proofs.Sblist
import Verif.Proofs.Tglist
import Verif.Proofs.Frame
/-! Lemmas about lists of strings in memory. -/
namespace Ulz.Kvmem
open Ulz.Kvmem.Spec
open Ulz.Sblist (SB)
open Ulz.Tglist (leVal leBytes leVal_leBytes leBytes_length)

theorem enc_length (kv : Bool) (e : Entry) : (enc kv e).length = entrySize kv := by
  cases kv <;> simp [enc, entrySize, leBytes_length]

theorem entrySize_pos (kv : Bool) : 0 < entrySize kv := by cases kv <;> decide

/-- The list holds the entries. -/
structure Rep (kv : Bool) (l : SB) (es : List Entry) : Prop where
  rep : Sblist.Spec.Rep l (es.map (enc kv))
  isz : l.itemsize = entrySize kv
  fits : ∀ e ∈ es, Fits kv e

theorem Rep.count {kv : Bool} {l : SB} {es : List Entry} (h : Rep kv l es) : l.count = es.length := by rw [h.rep.count, List.length_map]

/-! ### Fields -/

theorem rdN_sub {b : List Byte} {o n : Nat} {x : List Byte} (h : rdN b o n = .ok x) {i k : Nat} (hi : i + k ≤ n) : rdN b (o + i) k = .ok ((x.drop i).take k) := by
  unfold rdN at h ⊢
  split at h
  · rename_i hl
    have h := Except.ok.inj h
    rw [if_pos (by omega), ← h, List.drop_take, List.take_take, List.drop_drop, Nat.min_eq_left (by omega)]
  · cases h

theorem fields {kv : Bool} {l : SB} {es : List Entry} (h : Rep kv l es) (hb : l.count * l.itemsize < 2^64) {i : Nat} (hi : i < es.length) :
    ∃ o, Sblist.get l i = some o ∧ word l o = .ok es[i].ptr ∧ word l (o + 8) = .ok es[i].size ∧ (kv = true → word l (o + 16) = .ok es[i].value) := by
  have hd := Sblist.deref_get h.rep hb (i := i) (by rw [List.length_map]; exact hi)
  rw [List.getElem_map] at hd
  have hf := h.fits _ (List.getElem_mem hi)
  cases hg : Sblist.get l i with
  | none => rw [hg] at hd; cases hd
  | some o =>
    rw [hg] at hd
    simp only [Sblist.deref] at hd
    have hsz : 16 ≤ l.itemsize := by rw [h.isz]; cases kv <;> decide
    refine ⟨o, rfl, ?_, ?_, fun hk => ?_⟩
    · unfold word
      rw [show o = o + 0 from rfl, rdN_sub hd (by omega), ok_bindE, List.drop_zero]
      unfold enc
      rw [List.append_assoc, List.take_left' (leBytes_length _ _), leVal_leBytes _ _ hf.1]; rfl
    · unfold word
      rw [rdN_sub hd (by omega), ok_bindE]
      unfold enc
      rw [List.append_assoc, List.drop_left' (leBytes_length _ _), List.take_left' (leBytes_length _ _), leVal_leBytes _ _ hf.2.1]; rfl
    · subst hk
      unfold word
      rw [rdN_sub hd (by rw [h.isz]; decide), ok_bindE]
      unfold enc
      rw [List.drop_left' (by simp [leBytes_length]), if_pos rfl, List.take_of_length_le (by simp [leBytes_length]), leVal_leBytes _ _ hf.2.2.1]; rfl

theorem get_spec {kv : Bool} {l : SB} {es : List Entry} (h : Rep kv l es) (hb : l.count * l.itemsize < 2^64) (i : Nat) : get kv l i = .ok es[i]? := by
  unfold get
  by_cases hi : i < es.length
  · obtain ⟨o, g, w1, w2, w3⟩ := fields h hb hi
    rw [g]
    simp only [w1, w2, ok_bindE]
    rw [List.getElem?_eq_getElem hi]
    cases kv with
    | true => rw [if_pos rfl, w3 rfl, ok_bindE]; rfl
    | false =>
      have := (h.fits _ (List.getElem_mem hi)).2.2.2 rfl
      rw [if_neg (by simp), pure_eq_ok, ok_bindE, ← this]; rfl
  · have : Sblist.get l i = none := by unfold Sblist.get; rw [if_neg (by rw [h.count]; exact hi)]
    rw [this, List.getElem?_eq_none (by omega)]; rfl

/-! ### Strings -/

theorem holds_cons {m : Mem} {p : Nat} {b : Byte} {s : List Byte} : Holds m p (b :: s) ↔ m p = some b ∧ Holds m (p + 1) s := by
  constructor
  · intro h
    refine ⟨h 0 (by simp), fun i hi => ?_⟩
    have := h (i + 1) (by simp; omega)
    rw [List.getElem_cons_succ] at this
    rw [← this]; congr 1; omega
  · rintro ⟨h1, h2⟩ i hi
    cases i with
    | zero => exact h1
    | succ i =>
      rw [List.getElem_cons_succ, ← h2 i (by simp at hi; omega)]; congr 1; omega

theorem rdMem_ok {m : Mem} : ∀ {s : List Byte} {p : Nat}, Holds m p s → rdMem m p s.length = .ok s
  | [], _, _ => rfl
  | b :: s, p, h => by
    obtain ⟨h1, h2⟩ := holds_cons.1 h
    simp only [List.length_cons, rdMem, h1, rdMem_ok h2, ok_bindE, pure_eq_ok]

theorem holds_inj {m : Mem} {p : Nat} {s t : List Byte} (h1 : Holds m p s) (h2 : Holds m p t) (hl : s.length = t.length) : s = t := by
  have e1 := rdMem_ok h1
  have e2 := rdMem_ok h2
  rw [hl, e2] at e1
  exact (Except.ok.inj e1).symm

theorem text_inj {m : Mem} {e : Entry} {s t : List Byte} (h1 : Text m e s) (h2 : Text m e t) : s = t :=
  holds_inj h1.2 h2.2 (h1.1.symm.trans h2.1)

theorem eq_spec {m : Mem} {p : Nat} {s : List Byte} {e : Entry} {t : List Byte} (hs : Holds m p s) (ht : Text m e t) :
    ∃ b, eq m p s.length e.ptr e.size = .ok b ∧ (b = true ↔ Text m e s) := by
  unfold eq
  by_cases hl : s.length = e.size
  · rw [if_pos hl, rdMem_ok hs, ok_bindE, hl, ht.1, rdMem_ok ht.2, ok_bindE]
    refine ⟨_, rfl, ?_⟩
    rw [beq_iff_eq]
    exact ⟨fun h => h ▸ ht, fun h => text_inj h ht⟩
  · rw [if_neg hl]
    exact ⟨false, rfl, (by intro h; cases h), fun h => absurd h.1.symm hl⟩

theorem find_spec {kv : Bool} {l : SB} {es : List Entry} (h : Rep kv l es) (hb : l.count * l.itemsize < 2^64) {m : Mem} {p : Nat} {s : List Byte} (hs : Holds m p s)
    (ht : ∀ e ∈ es, ∃ t, Text m e t) : ∀ (fuel i : Nat), es.length < fuel + i → i ≤ es.length → (∀ j (h : j < es.length), j < i → ¬Text m es[j] s) →
    (findLoop m l p s.length fuel i = .ok none ∧ First m es s none) ∨
    ∃ j o, findLoop m l p s.length fuel i = .ok (some (j, o)) ∧ Sblist.get l j = some o ∧ First m es s (some j)
  | 0, i, hf, hle, hn => by omega
  | fuel + 1, i, hf, hle, hn => by
    rw [findLoop]
    by_cases hi : i < es.length
    · obtain ⟨o, g, w1, w2, _⟩ := fields h hb hi
      obtain ⟨t, htx⟩ := ht _ (List.getElem_mem hi)
      obtain ⟨b, e1, e2⟩ := eq_spec hs htx
      rw [if_pos (by rw [h.count]; exact hi), g]
      simp only [w1, w2, ok_bindE, e1]
      cases b with
      | true => exact Or.inr ⟨i, o, rfl, g, hi, e2.1 rfl, hn⟩
      | false =>
        rw [if_neg (by simp)]
        refine find_spec h hb hs ht fuel (i + 1) (by omega) (by omega) fun j hj hji => ?_
        by_cases e : j = i
        · subst e; exact fun hh => absurd (e2.2 hh) (by simp)
        · exact hn j hj (by omega)
    · rw [if_neg (by rw [h.count]; exact hi)]
      refine Or.inl ⟨rfl, fun e he => ?_⟩
      obtain ⟨j, hj, rfl⟩ := List.getElem_of_mem he
      exact hn j hj (by omega)

theorem dec_enc {kv : Bool} {e : Entry} (h : Fits kv e) : dec kv (enc kv e) = e := by
  obtain ⟨h1, h2, h3, h4⟩ := h
  unfold dec enc
  have e1 : ((leBytes 8 e.ptr ++ leBytes 8 e.size ++ if kv then leBytes 8 e.value else [])).take 8 = leBytes 8 e.ptr := by
    rw [List.append_assoc, List.take_left' (leBytes_length _ _)]
  have e2 : ((leBytes 8 e.ptr ++ leBytes 8 e.size ++ if kv then leBytes 8 e.value else []).drop 8).take 8 = leBytes 8 e.size := by
    rw [List.append_assoc, List.drop_left' (leBytes_length _ _), List.take_left' (leBytes_length _ _)]
  rw [e1, e2, leVal_leBytes _ _ h1, leVal_leBytes _ _ h2]
  cases kv with
  | true =>
    rw [List.drop_left' (by simp [leBytes_length]), if_pos rfl, if_pos rfl, List.take_of_length_le (by simp [leBytes_length]), leVal_leBytes _ _ h3]
  | false => rw [if_neg (by simp), ← h4 rfl]

theorem map_insert {kv : Bool} (es : List Entry) (e : Entry) (p : Nat) :
    (es.map (enc kv)).take p ++ enc kv e :: (es.map (enc kv)).drop p = (es.take p ++ e :: es.drop p).map (enc kv) := by
  rw [List.map_append, List.map_cons, List.map_take, List.map_drop]

theorem pairwise_enc {kv : Bool} {es : List Entry} {c : Entry → Entry → Int} (hf : ∀ e ∈ es, Fits kv e) :
    Sblist.Spec.Sorted (fun x y => c (dec kv x) (dec kv y)) (es.map (enc kv)) ↔ es.Pairwise (fun x y => c x y ≤ 0) := by
  unfold Sblist.Spec.Sorted
  rw [List.pairwise_map]
  constructor
  · intro h
    refine h.imp_of_mem fun {a b} ha hb hab => ?_
    have hab : c (dec kv (enc kv a)) (dec kv (enc kv b)) ≤ 0 := hab
    rw [dec_enc (hf a ha), dec_enc (hf b hb)] at hab; exact hab
  · intro h
    refine h.imp_of_mem fun {a b} ha hb hab => ?_
    show c (dec kv (enc kv a)) (dec kv (enc kv b)) ≤ 0
    rw [dec_enc (hf a ha), dec_enc (hf b hb)]; exact hab

theorem fits_insert {kv : Bool} {es : List Entry} {e : Entry} {p : Nat} (hf : ∀ e ∈ es, Fits kv e) (he : Fits kv e) : ∀ x ∈ es.take p ++ e :: es.drop p, Fits kv x := by
  intro x hx
  rcases List.mem_append.1 hx with h | h
  · exact hf x (List.mem_of_mem_take h)
  · rcases List.mem_cons.1 h with rfl | h
    · exact he
    · exact hf x (List.mem_of_mem_drop h)

theorem insert_sorted_sizes {l l' : SB} {xs : List (List Byte)} (h : Sblist.Spec.Rep l xs) (hbi : 0 < l.blockitems) (hb : (l.count + l.blockitems) * l.itemsize < 2^64)
    {a : Alloc} {o : List Byte} {cmp : List Byte → List Byte → Int} {p : Nat} (ho : o.length = l.itemsize) (hi : Sblist.insert_sorted a l o cmp = .ok (l', some p))
    (hp : p ≤ xs.length) : l'.itemsize = l.itemsize ∧ l'.blockitems = l.blockitems := by
  unfold Sblist.insert_sorted at hi
  rw [Frame.bind_ok] at hi
  obtain ⟨lo, _, hi⟩ := hi
  rw [Frame.bind_ok] at hi
  obtain ⟨⟨l1, r⟩, h1, hi⟩ := hi
  dsimp only at hi
  split at hi
  · have hi := Prod.mk.inj (Except.ok.inj hi)
    have hlo : lo = p := Option.some.inj hi.2
    rw [hlo] at h1
    rcases Sblist.insert_spec h hbi hb a o ho p hp with ⟨l2, g1, _, g3, g4⟩ | ⟨_, g2⟩
    · rw [g1] at h1
      have := (Prod.mk.inj (Except.ok.inj h1)).1
      rw [← hi.1, ← this]; exact ⟨g3, g4⟩
    · rw [g2] at h1
      have := (Prod.mk.inj (Except.ok.inj h1)).1
      rw [← hi.1, ← this]; exact ⟨rfl, rfl⟩
  · have hi := Prod.mk.inj (Except.ok.inj hi)
    cases hi.2

theorem map_eraseIdx' {α β : Type} (f : α → β) : ∀ (l : List α) (i : Nat), (l.map f).eraseIdx i = (l.eraseIdx i).map f
  | [], _ => rfl
  | _ :: _, 0 => rfl
  | a :: l, i + 1 => by simp only [List.map_cons, List.eraseIdx_cons_succ, map_eraseIdx' f l i]

theorem step_spec {kv : Bool} {l : SB} {es : List Entry} {m : Mem} (h : Rep kv l es) (hbi : 0 < l.blockitems) (hb : (l.count + l.blockitems) * l.itemsize < 2^64)
    (op : Op) (hop : Ok kv es m op) :
    ∃ l' m' r es', step kv l m op = .ok (l', m', r) ∧ Step es m op es' m' r ∧ Rep kv l' es' ∧ l'.blockitems = l.blockitems ∧ l'.count ≤ l.count + 1 := by
  have hb0 : l.count * l.itemsize < 2^64 := Sblist.mul_lt_of hb (by omega)
  have hc := h.count
  have hlen : ∀ e, (enc kv e).length = l.itemsize := fun e => by rw [enc_length, h.isz]
  cases op with
  | add e a =>
    rcases Sblist.add_spec h.rep hbi hb a (enc kv e) (hlen e) with ⟨l', h1, _, h3, h4, h5⟩ | ⟨h1, h2, _⟩
    · refine ⟨l', m, _, es ++ [e], by simp only [step, add, h1]; rfl, .add, ⟨by rw [List.map_append]; exact h3, by rw [h4, h.isz], ?_⟩, h5, ?_⟩
      · intro x hx
        rcases List.mem_append.1 hx with hx | hx
        · exact h.fits x hx
        · rw [List.mem_singleton.1 hx]; exact hop
      · rw [h3.count, hc]; simp
    · subst h1
      exact ⟨l, m, _, es, by simp only [step, add, h2]; rfl, .addFail, h, rfl, by omega⟩
  | set pos e =>
    by_cases hp : pos < es.length
    · obtain ⟨l', h1, h2, h3, h4⟩ := (Sblist.set_spec h.rep hb0 (enc kv e) (hlen e) pos).1 (by rw [List.length_map]; exact hp)
      refine ⟨l', m, _, es.set pos e, by simp only [step, set, h1]; rfl, .set hp, ⟨by rw [List.map_set]; exact h2, by rw [h3, h.isz], ?_⟩, h4, by rw [h2.count, hc]; simp⟩
      intro x hx
      rcases List.mem_or_eq_of_mem_set hx with hx | rfl
      · exact h.fits x hx
      · exact hop
    · have h1 := (Sblist.set_spec h.rep hb0 (enc kv e) (hlen e) pos).2 (by rw [List.length_map]; omega)
      exact ⟨l, m, _, es, by simp only [step, set, h1]; rfl, .setOut (by omega), h, rfl, by omega⟩
  | insert pos e a =>
    rcases Sblist.insert_spec h.rep hbi hb a (enc kv e) (hlen e) pos (by rw [List.length_map]; exact hop.2) with ⟨l', h1, h3, h4, h5⟩ | ⟨h1, h2⟩
    · rw [map_insert] at h3
      refine ⟨l', m, _, _, by simp only [step, insert, h1]; rfl, .insert, ⟨h3, by rw [h4, h.isz], fits_insert h.fits hop.1⟩, h5, ?_⟩
      rw [h3.count, hc]; simp; omega
    · subst h1
      exact ⟨l, m, _, es, by simp only [step, insert, h2]; rfl, .insertFail, h, rfl, by omega⟩
  | sorted e cmp a =>
    rcases Sblist.insert_sorted_spec h.rep hbi hb a (enc kv e) (hlen e) (fun x y => cmp m (dec kv x) (dec kv y)) with ⟨l', p, h1, h2, h3, h4⟩ | ⟨h1, h2, h3⟩
    · rw [map_insert] at h3 h4
      rw [List.length_map] at h2
      have hsz := insert_sorted_sizes h.rep hbi hb (hlen e) h1 (by rw [List.length_map]; exact h2)
      refine ⟨l', m, _, _, by simp only [step, insert_sorted, h1]; rfl, .sorted h2 fun ht hs => ?_, ⟨h3, by rw [hsz.1, h.isz], fits_insert h.fits hop⟩, hsz.2, ?_⟩
      · exact (pairwise_enc (fits_insert h.fits hop)).1 (h4 ⟨fun a => ht.refl _, fun a b => ht.flip _ _, fun a b d => ht.trans _ _ _⟩ ((pairwise_enc h.fits).2 hs))
      · rw [h3.count, hc]; simp; omega
    · subst h1
      exact ⟨l, m, _, es, by simp only [step, insert_sorted, h3]; rfl, .sortedFail, h, rfl, by omega⟩
  | delete i =>
    obtain ⟨l', h1, h2, h3, h4, _⟩ := Sblist.delete_spec h.rep hb0 i
    refine ⟨l', m, _, es.eraseIdx i, by simp only [step, h1]; rfl, .delete, ⟨by rw [← map_eraseIdx']; exact h2, by rw [h3, h.isz], fun x hx => h.fits x (List.mem_of_mem_eraseIdx hx)⟩, h4, ?_⟩
    rw [h2.count, hc, List.length_eraseIdx]; split <;> simp <;> omega
  | get i => exact ⟨l, m, _, es, by simp only [step, get_spec h hb0]; rfl, .get, h, rfl, by omega⟩
  | size => exact ⟨l, m, _, es, by simp only [step]; rw [hc]; rfl, .size, h, rfl, by omega⟩
  | find p n =>
    obtain ⟨⟨s, hs, rfl⟩, ht⟩ := hop
    rcases find_spec h hb0 hs ht (l.count + 1) 0 (by omega) (by omega) (fun j _ hj => by omega) with ⟨f1, f2⟩ | ⟨j, o, f1, f2, f3⟩
    · exact ⟨l, m, _, es, by simp only [step, stringptrlist_find, f1, ok_bindE]; rfl, .find hs f2, h, rfl, by omega⟩
    · exact ⟨l, m, _, es, by simp only [step, stringptrlist_find, f1, ok_bindE]; rfl, .find hs f3, h, rfl, by omega⟩
  | kvfind p n v =>
    obtain ⟨rfl, ⟨s, hs, rfl⟩, ht⟩ := hop
    rcases find_spec h hb0 hs ht (l.count + 1) 0 (by omega) (by omega) (fun j _ hj => by omega) with ⟨f1, f2⟩ | ⟨j, o, f1, f2, f3⟩
    · exact ⟨l, m, _, es, by simp only [step, kv_find, f1, ok_bindE]; rfl, .kvnone hs f2, h, rfl, by omega⟩
    · obtain ⟨o', g, _, _, w⟩ := fields h hb0 f3.1
      rw [f2] at g
      cases g
      exact ⟨l, m, _, es, by simp only [step, kv_find, f1, ok_bindE, w rfl]; rfl, .kvfind (h := f3.1) hs f3, h, rfl, by omega⟩
  | poke p b => exact ⟨l, _, _, es, rfl, .poke, h, rfl, by omega⟩

theorem run_spec_count {kv : Bool} : ∀ (ops : List Op) {l : SB} {es : List Entry} {m : Mem}, Rep kv l es → 0 < l.blockitems →
    (l.count + ops.length + l.blockitems) * entrySize kv < 2^64 → Safe kv es m ops →
    ∃ l' m' rs es', run kv l m ops = .ok (l', m', rs) ∧ Steps es m ops es' m' rs ∧ Rep kv l' es' ∧ l'.blockitems = l.blockitems ∧ l'.count ≤ l.count + ops.length
  | [], l, es, m, h, _, _, _ => ⟨l, m, [], es, rfl, .nil, h, rfl, by simp⟩
  | op :: ops, l, es, m, h, hbi, hb, hs => by
    simp only [List.length_cons] at hb
    obtain ⟨l1, m1, r, es1, s1, s2, s3, s4, s5⟩ := step_spec h hbi (by rw [h.isz]; exact Sblist.mul_lt_of hb (by omega)) op hs.1
    obtain ⟨l2, m2, rs, es2, r1, r2, r3, r4, r5⟩ := run_spec_count ops s3 (by omega) (Sblist.mul_lt_of hb (by omega)) (hs.2 _ _ _ s2)
    exact ⟨l2, m2, r :: rs, es2, by simp only [run, s1, ok_bindE, r1]; rfl, .cons s2 r2, r3, by omega, by simp only [List.length_cons]; omega⟩

theorem run_spec {kv : Bool} (ops : List Op) {l : SB} {es : List Entry} {m : Mem} (h : Rep kv l es) (h0 : 0 < l.blockitems)
    (hb : (l.count + ops.length + l.blockitems) * entrySize kv < 2^64) (hs : Safe kv es m ops) :
    ∃ l' m' rs es', run kv l m ops = .ok (l', m', rs) ∧ Steps es m ops es' m' rs ∧ Rep kv l' es' := by
  obtain ⟨l', m', rs, es', a, b, c, _⟩ := run_spec_count ops h h0 hb hs
  exact ⟨l', m', rs, es', a, b, c⟩

theorem first_unique {m : Mem} {es : List Entry} {s : List Byte} {a b : Option Nat} (ha : First m es s a) (hb : First m es s b) : a = b := by
  cases a with
  | none =>
    cases b with
    | none => rfl
    | some j => obtain ⟨h, t, _⟩ := hb; exact absurd t (ha _ (List.getElem_mem h))
  | some i =>
    obtain ⟨hi, ti, ni⟩ := ha
    cases b with
    | none => exact absurd ti (hb _ (List.getElem_mem hi))
    | some j =>
      obtain ⟨hj, tj, nj⟩ := hb
      rcases Nat.lt_trichotomy i j with h | h | h
      · exact absurd ti (nj i hi h)
      · rw [h]
      · exact absurd tj (ni j hj h)

end Ulz.Kvmem
