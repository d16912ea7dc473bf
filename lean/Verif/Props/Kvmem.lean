import Verif.Proofs.Kvmem
/-! C210: lists of strings and of keys with values, by reference. -/
namespace Ulz.Props
open Ulz Ulz.Kvmem Ulz.Kvmem.Spec
open Ulz.Sblist (SB)

/-- Every history of a new list of strings (`kv = false`) or of keys with values (`kv = true`), with any outcome of the allocations and any changes of the
    memory in between, is a history of a mathematical list of entries: in particular a search compares with what is in memory now. -/
theorem kv_history {kv : Bool} {n : Nat} {m : Mem} {ops : List Op} (hn : 0 < n) (hb : (ops.length + n) * entrySize kv < 2^64) (hs : Safe kv [] m ops) :
    ∃ l l' m' rs es', new kv n = .ok l ∧ run kv l m ops = .ok (l', m', rs) ∧ Steps [] m ops es' m' rs := by
  obtain ⟨l, h1, h2, h3, h4, h5⟩ := Sblist.init_rep (entrySize_pos kv) hn
  obtain ⟨l', m', rs, es', r1, r2, _⟩ := run_spec (kv := kv) ops (l := l) (es := []) (m := m) ⟨h2, h4, fun e he => by cases he⟩ (by omega)
    (by rw [h5, h3]; exact Sblist.mul_lt_of hb (by omega)) hs
  exact ⟨l, l', m', rs, es', h1, r1, r2⟩

/-- A key that is found stays found with its value when entries are added, also with the same key: only a deletion, another `kv_set` or another content of the
    memory makes a later entry with the same key visible. -/
theorem kv_shadowed {n : Nat} {m m1 : Mem} {ops : List Op} {l l1 : SB} {rs : List Res} {p k v w : Nat} {e : Entry} {t : List Byte} {a : Alloc} (hn : 0 < n)
    (hb : (ops.length + 2 + n) * 24 < 2^64) (hs : Safe true [] m (ops ++ [.kvfind p k v])) (hl : new true n = .ok l) (hr : run true l m ops = .ok (l1, m1, rs))
    (hk : run true l1 m1 [.kvfind p k v] = .ok (l1, m1, [.found 1 w])) (he : Fits true e) (ht : Text m1 e t) :
    ∃ l2 r, run true l1 m1 [.add e a, .kvfind p k v] = .ok (l2, m1, [r, .found 1 w]) := by
  obtain ⟨l0, h1, h2, h3, h4, h5⟩ := Sblist.init_rep (entrySize_pos true) hn
  have : l0 = l := Except.ok.inj (h1.symm.trans hl)
  subst this
  have hs1 : ∀ {es : List Entry} {m : Mem} {ops : List Op} {q : List Op}, Safe true es m (ops ++ q) → Safe true es m ops := by
    intro es m ops
    induction ops generalizing es m with
    | nil => intro q _; trivial
    | cons o os ih => intro q h; exact ⟨h.1, fun es' m' r hst => ih (h.2 es' m' r hst)⟩
  have hs2 : ∀ {es es' : List Entry} {m m' : Mem} {ops q : List Op} {rs : List Res}, Safe true es m (ops ++ q) → Steps es m ops es' m' rs → Safe true es' m' q := by
    intro es es' m m' ops q rs h hst
    induction hst with
    | nil => exact h
    | cons s _ ih => exact ih (h.2 _ _ _ s)
  obtain ⟨l', m', rs', es', r1, r2, r3, r4, r5⟩ := run_spec_count (kv := true) ops (l := l0) (es := []) (m := m) ⟨h2, h4, fun e he => by cases he⟩ (by omega)
    (by rw [h5, h3]; exact Sblist.mul_lt_of hb (by omega)) (hs1 hs)
  rw [r1] at hr
  cases hr
  have hok : Ok true es' m1 (.kvfind p k v) := (hs2 hs r2).1
  have hbd : ∀ l2 : SB, l2.itemsize = 24 → l2.blockitems = n → l2.count ≤ ops.length + 1 → (l2.count + l2.blockitems) * l2.itemsize < 2^64 := by
    intro l2 e1 e2 e3; rw [e1, e2]; exact Sblist.mul_lt_of hb (by omega)
  -- the search before
  obtain ⟨la, ma, ra, ea, s1, s2, _⟩ := step_spec r3 (by omega) (hbd l1 r3.isz (by omega) (by omega)) _ hok
  have hra : ra = .found 1 w := by
    simp only [run, s1, ok_bindE, pure_eq_ok] at hk
    have := (Prod.mk.inj (Prod.mk.inj (Except.ok.inj hk)).2).2
    exact List.head_eq_of_cons_eq this
  subst hra
  obtain ⟨i, hi, hf, hw⟩ : ∃ i, ∃ hi : i < es'.length, (∃ s, Holds m1 p s ∧ s.length = k ∧ First m1 es' s (some i)) ∧ es'[i].value = w := by
    cases s2 with
    | kvfind h1 h2 => exact ⟨_, _, ⟨_, h1, rfl, h2⟩, rfl⟩
  obtain ⟨s, hps, rfl, hfi⟩ := hf
  -- the addition
  obtain ⟨lb, mb, rb, eb, t1, t2, t3, t4, t5⟩ := step_spec r3 (by omega) (hbd l1 r3.isz (by omega) (by omega)) (.add e a) he
  have hmb : mb = m1 := by cases t2 <;> rfl
  subst hmb
  have hfi' : First mb eb s (some i) ∧ ∃ hi' : i < eb.length, eb[i].value = w := by
    cases t2 with
    | add =>
      obtain ⟨hh, q1, q2⟩ := hfi
      refine ⟨⟨by simp; omega, by rw [List.getElem_append_left hh]; exact q1, fun j hj hji => ?_⟩, by simp; omega, by rw [List.getElem_append_left hi]; exact hw⟩
      rw [List.getElem_append_left (by omega)]; exact q2 j (by omega) hji
    | addFail => exact ⟨hfi, hi, hw⟩
  have hok2 : Ok true eb mb (.kvfind p s.length v) := by
    refine ⟨rfl, ⟨s, hps, rfl⟩, fun x hx => ?_⟩
    cases t2 with
    | add =>
      rcases List.mem_append.1 hx with hx | hx
      · exact hok.2.2 x hx
      · rw [List.mem_singleton.1 hx]; exact ⟨t, ht⟩
    | addFail => exact hok.2.2 x hx
  obtain ⟨lc, mc, rc, ec, u1, u2, _⟩ := step_spec t3 (by omega) (hbd lb t3.isz (by omega) (by omega)) _ hok2
  have hrc : rc = .found 1 w ∧ mc = mb := by
    obtain ⟨hf1, hi', hw'⟩ := hfi'
    generalize hkk : s.length = k at u2
    cases u2 with
    | kvfind h1 h2 =>
      have hse := holds_inj h1 hps hkk.symm
      subst hse
      have := first_unique h2 hf1
      cases this
      exact ⟨by rw [hw'], rfl⟩
    | kvnone h1 h2 =>
      have hse := holds_inj h1 hps hkk.symm
      subst hse
      have := first_unique h2 hf1
      cases this
  refine ⟨lc, rb, ?_⟩
  simp only [run, t1, ok_bindE, u1, pure_eq_ok]
  rw [hrc.1, hrc.2]

/-- "ab" at 100 and at 200. -/
def twoStrings : Mem := fun q => if q = 100 ∨ q = 200 then some 97 else if q = 101 ∨ q = 201 then some 98 else none

theorem twoStrings_100 : Holds twoStrings 100 [97, 98] := by
  intro i h
  match i with
  | 0 => rfl
  | 1 => rfl

theorem twoStrings_200 : Holds twoStrings 200 [97, 98] := by
  intro i h
  match i with
  | 0 => rfl
  | 1 => rfl

example : ∃ l l' m' rs es', new true 4 = .ok l ∧ run true l twoStrings [.add ⟨100, 2, 7⟩ (some fun _ => 0), .kvfind 200 2 0] = .ok (l', m', rs) ∧
    Steps [] twoStrings [.add ⟨100, 2, 7⟩ (some fun _ => 0), .kvfind 200 2 0] es' m' rs := by
  refine kv_history (by decide) (by decide) ⟨⟨by decide, by decide, by decide, by decide⟩, fun es' m' r h => ?_⟩
  cases h
  refine ⟨⟨rfl, ⟨[97, 98], twoStrings_200, rfl⟩, fun e he => ?_⟩, fun _ _ _ _ => trivial⟩
  rw [List.mem_singleton.1 he]
  exact ⟨[97, 98], rfl, twoStrings_100⟩

/-- The key is found by its content, and no more when the program overwrites it. -/
example : ∃ l, new true 4 = .ok l ∧ ((do
    let (_, _, rs) ← run true l twoStrings [.add ⟨100, 2, 7⟩ (some fun _ => 0), .add ⟨200, 2, 8⟩ none, .kvfind 200 2 0, .poke 100 (some 99), .kvfind 200 2 0, .size]
    pure rs) = .ok [.int 1, .int 1, .found 1 7, .unit, .found 1 8, .int 2]) := ⟨_, rfl, by decide +kernel⟩

end Ulz.Props
