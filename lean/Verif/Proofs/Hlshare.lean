import Verif.Spec.Hlshare
import Verif.Proofs.Sbshare
import Verif.Proofs.Frame
/-! Lemmas about threads that share a hashlist. -/
namespace Ulz.Sbshare

theorem regrow_sizes {m m' : Mem} {g : Grow} {p n : Nat} {q : Option Nat} (h : regrow m g p n = .ok (m', q)) : m'.isz = m.isz ∧ m'.bi = m.bi := by
  unfold regrow at h
  rw [Frame.bind_ok] at h
  obtain ⟨b, _, h⟩ := h
  split at h
  · cases h; exact ⟨rfl, rfl⟩
  · dsimp only at h
    split at h
    · cases h; exact ⟨rfl, rfl⟩
    · split at h <;> cases h <;> exact ⟨rfl, rfl⟩

theorem micro_sizes {o : Op} {q q' : Mem} {pc : Pc} {x : Pc ⊕ Res} (h : micro o q pc = .ok (q', x)) : q'.isz = q.isz ∧ q'.bi = q.bi := by
  cases pc with
  | idle =>
    cases o <;> simp only [micro] at h
    · cases h; exact ⟨rfl, rfl⟩
    · split at h <;> cases h <;> exact ⟨rfl, rfl⟩
    · split at h <;> cases h <;> exact ⟨rfl, rfl⟩
  | gcap c => simp only [micro] at h; split at h <;> cases h <;> exact ⟨rfl, rfl⟩
  | gcall p k =>
    simp only [micro] at h
    rw [Frame.bind_ok] at h
    obtain ⟨⟨a, b⟩, h1, h⟩ := h
    have := regrow_sizes h1
    cases b <;> cases h <;> exact this
  | chk p => simp only [micro] at h; split at h <;> cases h <;> exact ⟨rfl, rfl⟩
  | cpy a b k =>
    simp only [micro] at h
    split at h
    · rw [Frame.bind_ok] at h
      obtain ⟨_, _, h⟩ := h
      rw [Frame.bind_ok] at h
      obtain ⟨_, _, h⟩ := h
      rw [Frame.bind_ok] at h
      obtain ⟨_, _, h⟩ := h
      cases h; exact ⟨rfl, rfl⟩
    · cases h; exact ⟨rfl, rfl⟩
  | lrd a b acc =>
    simp only [micro] at h
    split at h
    · rw [Frame.bind_ok] at h
      obtain ⟨_, _, h⟩ := h
      rw [Frame.bind_ok] at h
      obtain ⟨_, _, h⟩ := h
      cases h; exact ⟨rfl, rfl⟩
    · cases h; exact ⟨rfl, rfl⟩
  | gptr => cases h; exact ⟨rfl, rfl⟩
  | gcap2 p => cases h; exact ⟨rfl, rfl⟩
  | capl p => cases h; exact ⟨rfl, rfl⟩
  | caps p v => cases h; exact ⟨rfl, rfl⟩
  | setit p => cases h; exact ⟨rfl, rfl⟩
  | inc => cases h; exact ⟨rfl, rfl⟩
  | incs v => cases h; exact ⟨rfl, rfl⟩
  | pos => cases h; exact ⟨rfl, rfl⟩
  | addr p => cases h; exact ⟨rfl, rfl⟩
  | laddr p => cases h; exact ⟨rfl, rfl⟩

theorem run_sizes : ∀ {sched : List Nat} {s s' : St}, run s sched = .ok s' → s'.mem.isz = s.mem.isz ∧ s'.mem.bi = s.mem.bi
  | [], _, _, h => by cases h; exact ⟨rfl, rfl⟩
  | t :: ts, s, s', h => by
    simp only [run] at h
    rw [Frame.bind_ok] at h
    obtain ⟨s1, h1, h2⟩ := h
    obtain ⟨a, b⟩ := run_sizes h2
    unfold step at h1
    dsimp only at h1
    split at h1
    · cases h1; exact ⟨a, b⟩
    · rw [Frame.bind_ok] at h1
      obtain ⟨⟨m, pc | r⟩, h3, h1⟩ := h1 <;> cases h1 <;> obtain ⟨c, d⟩ := micro_sizes h3 <;> exact ⟨by rw [a]; exact c, by rw [b]; exact d⟩

end Ulz.Sbshare

namespace Ulz.Hlshare
open Ulz.Hlshare.Spec
open Ulz.Sbshare (Mem Grow upd upd_self upd_ne)

/-! ### One call, step by step -/

/-- A list object as it is between two calls. -/
def Good (ds : Nat) (q : Mem) (ys : List (List Byte)) : Prop := q.isz = ds ∧ q.bi = 8 ∧ Sbshare.Spec.Holds q ys

/-- The bucket `d`, with a list that is its own. -/
def Here (m : Tab) (own : Nat → Nat) (d : Nat) (ys : List (List Byte)) : Prop :=
  ∀ l, m.slots d = some l → own l = d ∧ ∃ q, m.lists l = some q ∧ Good m.ds q ys

/-- Between two calls. -/
def Rest (m : Tab) (own : Nat → Nat) (d : Nat) (ys : List (List Byte)) : Prop := (m.slots d = none → ys = []) ∧ Here m own d ys

/-- The call is an add. -/
def IsAdd : Op → Prop
  | .add _ _ _ _ => True
  | .look _ _ => False

/-- What is so at the places of a call on the bucket `d`, which has the values `ys`. -/
def Loc (m : Tab) (own : Nat → Nat) (d : Nat) (ys : List (List Byte)) (o : Op) : Pc → Prop
  | .idle => Rest m own d ys
  | .mk e => e = d ∧ IsAdd o ∧ ys = [] ∧ m.slots d = none
  | .st e r => e = d ∧ IsAdd o ∧ ys = [] ∧ m.slots d = none ∧ (r = none → hdrOf o = false) ∧
      ∀ l, r = some l → own l = d ∧ ∃ q, m.lists l = some q ∧ Good m.ds q []
  | .tst e => e = d ∧ IsAdd o ∧ ys = [] ∧ Here m own d ys ∧ (m.slots d = none → hdrOf o = false)
  | .ld e => e = d ∧ IsAdd o ∧ Here m own d ys ∧ m.slots d ≠ none
  | .on l pc => m.slots d = some l ∧ own l = d ∧ ∃ q, m.lists l = some q ∧ q.isz = m.ds ∧ q.bi = 8 ∧ Sbshare.Base q ∧
      Sbshare.Loc q (fun _ => True) True ys (inner o) pc

theorem fresh_good {ds : Nat} (h : 0 < ds) : Good ds (fresh ds) [] := by
  refine ⟨rfl, rfl, ⟨⟨h, rfl, by simp, by simp [fresh, Sbshare.Spec.view], [], by simp [fresh, Sbshare.Spec.view], by simp [fresh, Sbshare.Spec.view]⟩, rfl, rfl, fun p hp => ?_⟩⟩
  have : 1 ≤ p := hp
  simp [fresh, show p ≠ 0 by omega]

theorem Good.of_idle {ds : Nat} {q : Mem} {ys : List (List Byte)} {o : Sbshare.Op} (h1 : q.isz = ds) (h2 : q.bi = 8) (hB : Sbshare.Base q)
    (hy : ∀ y ∈ ys, y.length = ds) (h : Sbshare.Loc q (fun _ => True) True ys o .idle) : Good ds q ys := by
  obtain ⟨c1, c2, c3⟩ := h
  have hc := c1.2 trivial
  exact ⟨h1, h2, Sbshare.holds_of_slots c3 hB.isz (by rw [h1]; exact hy) hc (by omega) hB.null hB.fresh⟩

/-- What a step on bucket `d` leaves alone. -/
structure Frame (m m' : Tab) (own own' : Nat → Nat) (d : Nat) : Prop where
  bc : m'.bc = m.bc
  ds : m'.ds = m.ds
  slots : ∀ e, e ≠ d → m'.slots e = m.slots e
  lists : ∀ l, own l ≠ d → (m.lists l).isSome → m'.lists l = m.lists l ∧ own' l = own l
  unused : (∀ l, m.next ≤ l → m.lists l = none) → ∀ l, m'.next ≤ l → m'.lists l = none

theorem Frame.refl (m : Tab) (own : Nat → Nat) (d : Nat) : Frame m m own own d :=
  ⟨rfl, rfl, fun _ _ => rfl, fun _ _ _ => ⟨rfl, rfl⟩, fun h => h⟩

theorem Frame.list {m : Tab} {own : Nat → Nat} {d l : Nat} (hl : own l = d) (hs : (m.lists l).isSome) (q : Mem) :
    Frame m { m with lists := upd m.lists l (some q) } own own d := by
  refine ⟨rfl, rfl, fun _ _ => rfl, fun k hk _ => ⟨upd_ne _ _ (fun e => hk (by rw [e]; exact hl)), rfl⟩, fun h k hk => ?_⟩
  have : k ≠ l := fun e => by
    have := h k hk
    rw [e] at this
    rw [this] at hs; cases hs
  show upd _ _ _ _ = _
  rw [upd_ne _ _ this]
  exact h k hk

theorem Here.frame {m m' : Tab} {own own' : Nat → Nat} {d e : Nat} {ys : List (List Byte)} (hf : Frame m m' own own' d) (he : e ≠ d)
    (h : Here m own e ys) : Here m' own' e ys := by
  intro l hl
  rw [hf.slots e he] at hl
  obtain ⟨h1, q, h2, h3⟩ := h l hl
  obtain ⟨f1, f2⟩ := hf.lists l (by rw [h1]; exact he) (by rw [h2]; rfl)
  exact ⟨by rw [f2, h1], q, by rw [f1, h2], by rw [hf.ds]; exact h3⟩

theorem Loc.frame {m m' : Tab} {own own' : Nat → Nat} {d e : Nat} {ys : List (List Byte)} {o : Op} (hf : Frame m m' own own' d) (he : e ≠ d)
    {pc : Pc} (h : Loc m own e ys o pc) : Loc m' own' e ys o pc := by
  cases pc with
  | idle => exact ⟨by rw [hf.slots e he]; exact h.1, h.2.frame hf he⟩
  | mk _ => exact ⟨h.1, h.2.1, h.2.2.1, by rw [hf.slots e he]; exact h.2.2.2⟩
  | st _ r =>
    obtain ⟨h1, h2, h3, h4, h5, h6⟩ := h
    refine ⟨h1, h2, h3, by rw [hf.slots e he]; exact h4, h5, fun l hl => ?_⟩
    obtain ⟨g1, q, g2, g3⟩ := h6 l hl
    obtain ⟨f1, f2⟩ := hf.lists l (by rw [g1]; exact he) (by rw [g2]; rfl)
    exact ⟨by rw [f2, g1], q, by rw [f1, g2], by rw [hf.ds]; exact g3⟩
  | tst _ =>
    obtain ⟨h1, h2, h3, h4, h5⟩ := h
    exact ⟨h1, h2, h3, h4.frame hf he, by rw [hf.slots e he]; exact h5⟩
  | ld _ =>
    obtain ⟨h1, h2, h3, h4⟩ := h
    exact ⟨h1, h2, h3.frame hf he, by rw [hf.slots e he]; exact h4⟩
  | on l pc =>
    obtain ⟨h1, h2, q, h3, h4, h5, h6, h7⟩ := h
    obtain ⟨f1, f2⟩ := hf.lists l (by rw [h2]; exact he) (by rw [h3]; rfl)
    exact ⟨by rw [hf.slots e he]; exact h1, by rw [f2, h2], q, by rw [f1, h3], by rw [hf.ds]; exact h4, h5, h6, h7⟩

/-- What a step gives. -/
def Next (m : Tab) (own : Nat → Nat) (d : Nat) (ys : List (List Byte)) (o : Op) : C (Tab × (Pc ⊕ Res)) → Prop
  | .error _ => False
  | .ok (m', .inl pc) => ∃ own', Frame m m' own own' d ∧ pc ≠ .idle ∧ Loc m' own' d ys o pc
  | .ok (m', .inr r) => ∃ own' zs, Frame m m' own own' d ∧ Step ys o zs r ∧ Rest m' own' d zs

theorem good_loc {ds : Nat} {q : Mem} {ys : List (List Byte)} (h : Good ds q ys) (o : Sbshare.Op) : Sbshare.Base q ∧ Sbshare.Loc q (fun _ => True) True ys o .idle :=
  ⟨h.2.2.base, h.2.2.loc o⟩

theorem step_inner {ys zs : List (List Byte)} {o : Op} {r : Sbshare.Res} (h : Sbshare.Spec.Step ys (inner o) zs r) : Step ys o zs (give r) := by
  cases o with
  | add a x hdr g =>
    simp only [inner] at h
    cases h with
    | add => exact .add
    | addFail => exact .addFull
  | look a i =>
    simp only [inner] at h
    cases h
    exact .look

theorem micro_loc {m : Tab} {own : Nat → Nat} {d : Nat} {ys : List (List Byte)} {o : Op} (hbc : 0 < m.bc) (hds : 0 < m.ds) (hd : d = bkt m.bc o)
    (hun : ∀ l, m.next ≤ l → m.lists l = none) (ho : OpOk m.ds o) (hy : ∀ y ∈ ys, y.length = m.ds) (hb : (ys.length + 8) * m.ds < 2^64) {pc : Pc}
    (h : Loc m own d ys o pc) : Next m own d ys o (micro o m pc) := by
  cases pc with
  | idle =>
    obtain ⟨h1, h2⟩ := h
    have hs : slotOf m o = .ok d := by unfold slotOf; rw [if_neg (by omega), hd]; rfl
    simp only [micro, hs, ok_bindE]
    cases o with
    | add a x hdr g =>
      cases hq : m.slots d with
      | none => exact ⟨own, .refl _ _ _, by simp, rfl, trivial, h1 hq, hq⟩
      | some l => exact ⟨own, .refl _ _ _, by simp, rfl, trivial, h2, by simp [hq]⟩
    | look a i =>
      cases hq : m.slots d with
      | none =>
        have := h1 hq
        subst this
        exact ⟨own, _, .refl _ _ _, .look (ys := []), ⟨fun _ => rfl, h2⟩⟩
      | some l =>
        obtain ⟨g1, q, g2, g3⟩ := h2 l hq
        exact ⟨own, .refl _ _ _, by simp, hq, g1, q, g2, g3.1, g3.2.1, good_loc g3 _⟩
  | mk e =>
    obtain ⟨rfl, h1, h2, h3⟩ := h
    simp only [micro]
    cases hh : hdrOf o with
    | false => exact ⟨own, .refl _ _ _, by simp, rfl, h1, h2, h3, fun _ => hh, fun l hl => by cases hl⟩
    | true =>
      refine ⟨upd own m.next e, ⟨rfl, rfl, fun _ _ => rfl, fun l hl hs => ?_, fun _ l hl => ?_⟩, by simp, rfl, h1, h2, h3, (fun hc => by cases hc), fun l hl => ?_⟩
      · have : l ≠ m.next := fun e => by rw [e, hun _ (Nat.le_refl _)] at hs; cases hs
        exact ⟨upd_ne _ _ this, upd_ne _ _ this⟩
      · have hl : m.next + 1 ≤ l := hl
        show upd _ _ _ _ = _
        rw [upd_ne _ _ (by omega)]; exact hun l (by omega)
      · cases hl
        exact ⟨upd_self _ _ _, _, upd_self _ _ _, fresh_good hds⟩
  | st e r =>
    obtain ⟨rfl, h1, h2, h3, h4, h5⟩ := h
    refine ⟨own, ⟨rfl, rfl, fun k hk => upd_ne _ _ hk, fun _ _ _ => ⟨rfl, rfl⟩, fun h => h⟩, by simp, rfl, h1, h2, fun l hl => ?_, fun hn => ?_⟩
    · have hl : r = some l := by rw [← hl]; exact (upd_self _ _ _).symm
      subst h2
      exact h5 l hl
    · have hl : r = none := by rw [← hn]; exact (upd_self _ _ _).symm
      exact h4 hl
  | tst e =>
    obtain ⟨rfl, h1, h2, h3, h4⟩ := h
    simp only [micro]
    cases hq : m.slots e with
    | none =>
      have := h4 hq
      subst h2
      cases o with
      | look a i => cases h1
      | add a x hdr g =>
        simp only [hdrOf] at this
        subst this
        exact ⟨own, _, .refl _ _ _, .addNone, fun _ => rfl, h3⟩
    | some l => exact ⟨own, .refl _ _ _, by simp, rfl, h1, h3, by simp [hq]⟩
  | ld e =>
    obtain ⟨rfl, h1, h2, h3⟩ := h
    simp only [micro]
    cases hq : m.slots e with
    | none => exact absurd hq h3
    | some l =>
      obtain ⟨g1, q, g2, g3⟩ := h2 l hq
      exact ⟨own, .refl _ _ _, by simp, hq, g1, q, g2, g3.1, g3.2.1, good_loc g3 _⟩
  | on l pc =>
    obtain ⟨h1, h2, q, h3, h4, h5, h6, h7⟩ := h
    simp only [micro, h3]
    have ho' : Sbshare.Spec.OpOk q.isz (inner o) := by
      rw [h4]; cases o with
      | add a x hdr g => exact ho
      | look a i => trivial
    have := Sbshare.micro_loc h6 (by rw [h4]; exact hy) ho' (fun _ => trivial) (fun _ _ => trivial)
      (by rw [h4]; exact Sblist.mul_lt_of hb (by omega)) (fun _ => by rw [h4]; exact Sblist.mul_lt_of hb (by omega))
      (fun _ _ => by rw [h4, h5]; exact ⟨by omega, hb⟩) h7
    cases hm : Sbshare.micro (inner o) q pc with
    | error e => rw [hm] at this; cases this
    | ok v =>
      rw [hm] at this
      obtain ⟨q', pc' | r⟩ := v
      · obtain ⟨n1, n2, n3, n4, n5⟩ := this
        exact ⟨own, .list h2 (by rw [h3]; rfl) _, by simp, h1, h2, q', upd_self _ _ _, by rw [n2]; exact h4, by rw [n3]; exact h5, n1, n5⟩
      · obtain ⟨n1, n2, n3, zs, n4, n5, n6⟩ := this
        refine ⟨own, zs, .list h2 (by rw [h3]; rfl) _, step_inner n4, fun hn => ?_, fun k hk => ?_⟩
        · have hn : m.slots d = none := hn
          rw [h1] at hn; cases hn
        · have hk : m.slots d = some k := hk
          rw [h1] at hk; cases hk
          refine ⟨h2, q', upd_self _ _ _, .of_idle (by rw [n2]; exact h4) (by rw [n3]; exact h5) n1 ?_ n5⟩
          rw [show Tab.ds { m with lists := upd m.lists l (some q') } = q.isz from h4.symm]
          exact n4.sized ho' (by rw [h4]; exact hy)

/-! ### Steps of threads -/

theorem step_inl {s : St} {t : Nat} {o : Op} {os : List Op} {m : Tab} {pc : Pc} (hc : (s.th t).calls = o :: os)
    (h : micro o s.tab (s.th t).pc = .ok (m, .inl pc)) : step s t = .ok ⟨m, upd s.th t ⟨o :: os, pc, (s.th t).out⟩⟩ := by
  unfold step
  simp only [hc, h, ok_bindE, pure_eq_ok]

theorem step_inr {s : St} {t : Nat} {o : Op} {os : List Op} {m : Tab} {r : Res} (hc : (s.th t).calls = o :: os)
    (h : micro o s.tab (s.th t).pc = .ok (m, .inr r)) : step s t = .ok ⟨m, upd s.th t ⟨os, .idle, (s.th t).out ++ [r]⟩⟩ := by
  unfold step
  simp only [hc, h, ok_bindE, pure_eq_ok]

theorem step_nil {s : St} {t : Nat} (hc : (s.th t).calls = []) : step s t = .ok s := by
  unfold step
  simp only [hc, pure_eq_ok]

theorem step_err {s : St} {t : Nat} {o : Op} {os : List Op} {e : UB} (hc : (s.th t).calls = o :: os)
    (h : micro o s.tab (s.th t).pc = .error e) : step s t = .error e := by
  unfold step
  simp only [hc, h, error_bind]

theorem run_append : ∀ (a b : List Nat) (s : St), run s (a ++ b) = (run s a >>= fun s' => run s' b)
  | [], _, _ => rfl
  | t :: a, b, s => by
    simp only [List.cons_append, run]
    cases h : step s t with
    | error e => rfl
    | ok s1 => simp only [ok_bindE]; exact run_append a b s1

theorem Spec.Step.len {ys zs : List (List Byte)} {o : Op} {r : Res} (h : Step ys o zs r) : zs.length ≤ ys.length + 1 := by
  cases h <;> simp

theorem Spec.Step.sized {z : Nat} {ys zs : List (List Byte)} {o : Op} {r : Res} (h : Step ys o zs r) (ho : OpOk z o)
    (hy : ∀ y ∈ ys, y.length = z) : ∀ y ∈ zs, y.length = z := by
  cases h with
  | add =>
    intro y hm
    rcases List.mem_append.1 hm with hm | hm
    · exact hy y hm
    · simp at hm; subst hm; exact ho
  | addFull => exact hy
  | addNone => exact hy
  | look => exact hy

/-! ### Calls that do not overlap -/

/-- The invariant: `B` bounds the number of items that were added. -/
structure Inv (f : Nat → List (List Byte)) (prog : Nat → List Op) (bc ds B : Nat) (s : St) (hist : List Entry) (g : Nat → List (List Byte))
    (own : Nat → Nat) : Prop where
  steps : Steps bc f (hist.map fun e => e.2.1) g (hist.map fun e => e.2.2)
  calls : ∀ t, prog t = ((hist.filter fun e => e.1 = t).map fun e => e.2.1) ++ (s.th t).calls ∧
      (s.th t).out = (hist.filter fun e => e.1 = t).map fun e => e.2.2
  ebc : s.tab.bc = bc
  eds : s.tab.ds = ds
  unused : ∀ l, s.tab.next ≤ l → s.tab.lists l = none
  sized : ∀ d < bc, ∀ y ∈ g d, y.length = ds
  len : ∀ d, (g d).length ≤ (f d).length + B
  one : ∀ d t u, Busy bc (s.th t) d → Busy bc (s.th u) d → t = u
  busy : ∀ t o os, (s.th t).calls = o :: os → (s.th t).pc ≠ .idle → Loc s.tab own (bkt bc o) (g (bkt bc o)) o (s.th t).pc
  rest : ∀ d < bc, (∀ t, ¬Busy bc (s.th t) d) → Rest s.tab own d (g d)

theorem Rest.holdsAt {m : Tab} {own : Nat → Nat} {d : Nat} {ys : List (List Byte)} (h : Rest m own d ys) : HoldsAt m d ys := by
  unfold HoldsAt
  cases hq : m.slots d with
  | none => exact h.1 hq
  | some l => exact (h.2 l hq).2

theorem Inv.serial {f : Nat → List (List Byte)} {prog : Nat → List Op} {bc ds B : Nat} {s : St} {hist : List Entry} {g : Nat → List (List Byte)}
    {own : Nat → Nat} (h : Inv f prog bc ds B s hist g own) : Serial f prog s := by
  refine ⟨hist, g, by rw [h.ebc]; exact h.steps, h.calls, fun d hd hn => ?_⟩
  rw [h.ebc] at hd hn
  exact (h.rest d hd hn).holdsAt

theorem inv_step {f : Nat → List (List Byte)} {prog : Nat → List Op} {bc ds B : Nat} (hbc : 0 < bc) (hds : 0 < ds)
    (hB : ∀ d < bc, ((f d).length + B + 8) * ds < 2^64) (hok : ∀ t, ∀ o ∈ prog t, OpOk ds o) {s : St} {hist : List Entry}
    {g : Nat → List (List Byte)} {own : Nat → Nat} (h : Inv f prog bc ds B s hist g own) (t : Nat)
    (hn : ∀ u, u ≠ t → ∀ o os, (s.th t).calls = o :: os → ¬Busy bc (s.th u) (bkt bc o)) :
    ∃ s' hist' g' own', step s t = .ok s' ∧ Inv f prog bc ds (B + 1) s' hist' g' own' := by
  cases hc : (s.th t).calls with
  | nil => exact ⟨s, hist, g, own, step_nil hc, { h with len := fun d => by have := h.len d; omega }⟩
  | cons o os =>
    have hmem : o ∈ prog t := by rw [(h.calls t).1, hc]; simp
    have hlt : bkt bc o < bc := Nat.mod_lt _ hbc
    have hloc : Loc s.tab own (bkt bc o) (g (bkt bc o)) o (s.th t).pc := by
      by_cases hp : (s.th t).pc = .idle
      · rw [hp]
        refine h.rest _ hlt fun u hu => ?_
        by_cases e : u = t
        · subst e; exact hu.1 hp
        · exact hn u e o os hc hu
      · exact h.busy t o os hc hp
    have hlen := h.len (bkt bc o)
    have := micro_loc (by rw [h.ebc]; exact hbc) (by rw [h.eds]; exact hds) (by rw [h.ebc]) h.unused (by rw [h.eds]; exact hok t o hmem)
      (by rw [h.eds]; exact h.sized _ hlt) (by rw [h.eds]; exact Sblist.mul_lt_of (hB _ hlt) (by omega)) hloc
    cases hm : micro o s.tab (s.th t).pc with
    | error e => rw [hm] at this; cases this
    | ok v =>
      rw [hm] at this
      obtain ⟨m', pc | r⟩ := v
      · obtain ⟨own', fr, n1, n2⟩ := this
        refine ⟨_, hist, g, own', step_inl hc hm, ?_⟩
        have hbusy : ∀ u d, Busy bc (upd s.th t ⟨o :: os, pc, (s.th t).out⟩ u) d → (u = t ∧ d = bkt bc o) ∨ (u ≠ t ∧ Busy bc (s.th u) d) := by
          intro u d hu
          by_cases e : u = t
          · subst e; rw [upd_self] at hu
            obtain ⟨_, o', os', e1, e2⟩ := hu
            cases e1; exact Or.inl ⟨rfl, e2.symm⟩
          · rw [upd_ne _ _ e] at hu; exact Or.inr ⟨e, hu⟩
        refine ⟨h.steps, fun u => ?_, by rw [← h.ebc]; exact fr.bc, by rw [← h.eds]; exact fr.ds, fr.unused h.unused, h.sized,
          fun d => by have := h.len d; omega, fun d a b ha hb => ?_, fun u o' os' e1 e2 => ?_, fun d hd hr => ?_⟩
        · by_cases e : u = t
          · subst e; simp only [upd_self]; rw [← hc]; exact h.calls u
          · simp only [upd_ne _ _ e]; exact h.calls u
        · rcases hbusy a d ha with ⟨a1, a2⟩ | ⟨a1, a2⟩ <;> rcases hbusy b d hb with ⟨b1, b2⟩ | ⟨b1, b2⟩
          · rw [a1, b1]
          · subst a2; exact absurd b2 (hn b b1 o os hc)
          · subst b2; exact absurd a2 (hn a a1 o os hc)
          · exact h.one d a b a2 b2
        · by_cases e : u = t
          · subst e
            simp only [upd_self] at e1 e2 ⊢
            cases e1; exact n2
          · simp only [upd_ne _ _ e] at e1 e2 ⊢
            refine (h.busy u o' os' e1 e2).frame fr fun he => hn u e o os hc ⟨e2, o', os', e1, he⟩
        · have hne : d ≠ bkt bc o := by
            rintro rfl
            refine hr t ?_
            simp only [upd_self]
            exact ⟨n1, o, os, rfl, rfl⟩
          have : Loc s.tab own d (g d) o .idle := h.rest d hd fun u hu => by
            refine hr u ?_
            have : u ≠ t := by
              rintro rfl
              obtain ⟨_, o', os', e1, e2⟩ := hu
              rw [hc] at e1; cases e1
              exact hne e2.symm
            simp only [upd_ne _ _ this]; exact hu
          exact this.frame fr hne
      · obtain ⟨own', zs, fr, n1, n2⟩ := this
        refine ⟨_, hist ++ [(t, o, r)], upd g (bkt bc o) zs, own', step_inr hc hm, ?_⟩
        have hbusy : ∀ u d, Busy bc (upd s.th t ⟨os, .idle, (s.th t).out ++ [r]⟩ u) d → u ≠ t ∧ Busy bc (s.th u) d := by
          intro u d hu
          by_cases e : u = t
          · subst e; rw [upd_self] at hu
            exact absurd rfl hu.1
          · rw [upd_ne _ _ e] at hu; exact ⟨e, hu⟩
        refine ⟨?_, fun u => ?_, by rw [← h.ebc]; exact fr.bc, by rw [← h.eds]; exact fr.ds, fr.unused h.unused, fun d hd => ?_,
          fun d => ?_, fun d a b ha hb => ?_, fun u o' os' e1 e2 => ?_, fun d hd hr => ?_⟩
        · rw [List.map_append, List.map_append]; exact .snoc h.steps n1
        · by_cases e : u = t
          · subst e; simp only [upd_self]
            have := h.calls u
            rw [hc] at this
            simp [this]
          · simp only [upd_ne _ _ e]
            have := h.calls u
            rw [List.filter_append, List.filter_cons_of_neg (by simpa using fun h : t = u => e h.symm), List.filter_nil, List.append_nil]
            exact this
        · by_cases e : d = bkt bc o
          · subst e; rw [upd_self]; exact n1.sized (hok t o hmem) (h.sized _ hd)
          · rw [upd_ne _ _ e]; exact h.sized d hd
        · have := h.len d
          by_cases e : d = bkt bc o
          · subst e; rw [upd_self]
            have := n1.len; omega
          · rw [upd_ne _ _ e]; omega
        · exact h.one d a b (hbusy a d ha).2 (hbusy b d hb).2
        · by_cases e : u = t
          · subst e
            simp only [upd_self] at e2
            exact absurd trivial (by simpa using e2)
          · simp only [upd_ne _ _ e] at e1 e2 ⊢
            have hne : bkt bc o' ≠ bkt bc o := fun he => hn u e o os hc ⟨e2, o', os', e1, he⟩
            rw [upd_ne _ _ hne]
            exact (h.busy u o' os' e1 e2).frame fr hne
        · by_cases e : d = bkt bc o
          · subst e; rw [upd_self]; exact n2
          · rw [upd_ne _ _ e]
            have : Loc s.tab own d (g d) o .idle := h.rest d hd fun u hu => by
              refine hr u ?_
              have : u ≠ t := by
                rintro rfl
                obtain ⟨_, o', os', e1, e2⟩ := hu
                rw [hc] at e1; cases e1
                exact e e2.symm
              simp only [upd_ne _ _ this]; exact hu
            exact this.frame fr e

theorem inv_run {f : Nat → List (List Byte)} {prog : Nat → List Op} {bc ds : Nat} (hbc : 0 < bc) (hds : 0 < ds)
    (hok : ∀ t, ∀ o ∈ prog t, OpOk ds o) : ∀ {sched : List Nat} {B : Nat} {s : St} {hist : List Entry} {g : Nat → List (List Byte)} {own : Nat → Nat},
    (∀ d < bc, ((f d).length + B + sched.length + 8) * ds < 2^64) → Inv f prog bc ds B s hist g own → NoOverlap s sched →
    ∃ s', run s sched = .ok s' ∧ Serial f prog s'
  | [], B, s, _, _, _, hb, h, hn => ⟨s, rfl, h.serial⟩
  | t :: ts, B, s, _, _, _, hb, h, hn => by
    have h1 := hn.1
    rw [h.ebc] at h1
    obtain ⟨s1, _, _, _, e1, i1⟩ := inv_step hbc hds (fun d hd => Sblist.mul_lt_of (hb d hd) (by omega)) hok h t h1
    obtain ⟨s2, e2, i2⟩ := inv_run hbc hds hok (sched := ts) (B := B + 1) (fun d hd => by
      refine Sblist.mul_lt_of (hb d hd) ?_
      simp only [List.length_cons]; omega) i1 (hn.2 s1 e1)
    exact ⟨s2, by simp only [run, e1]; exact e2, i2⟩

/-- Which bucket a list belongs to. -/
noncomputable def owner (m : Tab) (l : Nat) : Nat := open Classical in if h : ∃ d < m.bc, m.slots d = some l then h.choose else 0

theorem Spec.Holds.inv {m : Tab} {f : Nat → List (List Byte)} (h : Holds m f) (prog : Nat → List Op) :
    Inv f prog m.bc m.ds 0 (start m prog) [] f (owner m) := by
  refine ⟨.nil, fun t => ⟨rfl, rfl⟩, rfl, rfl, h.unused, fun d hd y hy => ?_, fun d => Nat.le_refl _, fun d t u ht => ?_, fun t o os _ hp => ?_, fun d hd _ => ?_⟩
  · have := h.at_ d hd
    unfold HoldsAt at this
    split at this
    · rw [this] at hy; cases hy
    · obtain ⟨q, _, q1, _, q2⟩ := this
      rw [← q1]; exact q2.rep.item y hy
  · exact absurd rfl ht.1
  · exact absurd rfl hp
  · have := h.at_ d hd
    unfold HoldsAt at this
    split at this
    · rename_i hq
      exact ⟨fun _ => this, fun l hl => (by rw [show m.slots d = some l from hl] at hq; cases hq)⟩
    · rename_i l hq
      refine ⟨fun hn => (by rw [show m.slots d = none from hn] at hq; cases hq), fun k hk => ?_⟩
      have hk : m.slots d = some k := hk
      rw [hq] at hk; cases hk
      obtain ⟨q, q0, q1, q2, q3⟩ := this
      refine ⟨?_, q, q0, q1, q2, q3⟩
      have hex : ∃ d < m.bc, m.slots d = some l := ⟨d, hd, hq⟩
      unfold owner
      rw [dif_pos hex]
      exact h.sep _ hex.choose_spec.1 d hd l hex.choose_spec.2 hq

/-! ### Threads that are apart -/

theorem calls_step {s s' : St} {t : Nat} (h : step s t = .ok s') (u : Nat) : ∀ o ∈ (s'.th u).calls, o ∈ (s.th u).calls := by
  unfold step at h
  dsimp only at h
  split at h
  · cases h; exact fun _ h => h
  · rename_i o os hc
    rw [Frame.bind_ok] at h
    obtain ⟨⟨m, pc | r⟩, _, h⟩ := h
    · cases h
      intro a ha
      by_cases e : u = t
      · subst e; simp only [upd_self] at ha; exact ha
      · simp only [upd_ne _ _ e] at ha; exact ha
    · cases h
      intro a ha
      by_cases e : u = t
      · subst e; simp only [upd_self] at ha; rw [hc]; exact List.mem_cons_of_mem _ ha
      · simp only [upd_ne _ _ e] at ha; exact ha

theorem run_calls : ∀ {sched : List Nat} {m : Tab} {prog : Nat → List Op} {s' : St}, run (start m prog) sched = .ok s' → ∀ u, ∀ o ∈ (s'.th u).calls, o ∈ prog u := by
  have : ∀ (sched : List Nat) (s s' : St), run s sched = .ok s' → ∀ u, ∀ o ∈ (s'.th u).calls, o ∈ (s.th u).calls := by
    intro sched
    induction sched with
    | nil => intro s s' h; cases h; exact fun _ _ h => h
    | cons t ts ih =>
      intro s s' h u o ho
      simp only [run] at h
      rw [Frame.bind_ok] at h
      obtain ⟨s1, h1, h2⟩ := h
      exact calls_step h1 u o (ih s1 s' h2 u o ho)
  intro sched m prog s' h
  exact this _ _ _ h

theorem micro_bc {o : Op} {m m' : Tab} {pc : Pc} {x : Pc ⊕ Res} (h : micro o m pc = .ok (m', x)) : m'.bc = m.bc := by
  cases pc with
  | idle =>
    simp only [micro] at h
    rw [Frame.bind_ok] at h
    obtain ⟨d, _, h⟩ := h
    split at h <;> split at h <;> cases h <;> rfl
  | mk e => simp only [micro] at h; split at h <;> cases h <;> rfl
  | st e r => cases h; rfl
  | tst e => simp only [micro] at h; split at h <;> cases h <;> rfl
  | ld e => simp only [micro] at h; split at h <;> cases h <;> rfl
  | on l pc =>
    simp only [micro] at h
    split at h
    · cases h
    · rw [Frame.bind_ok] at h
      obtain ⟨⟨q, pc | r⟩, _, h⟩ := h <;> cases h <;> rfl

theorem step_bc {s s' : St} {t : Nat} (h : step s t = .ok s') : s'.tab.bc = s.tab.bc := by
  unfold step at h
  dsimp only at h
  split at h
  · cases h; rfl
  · rw [Frame.bind_ok] at h
    obtain ⟨⟨m, pc | r⟩, h1, h⟩ := h <;> cases h <;> exact micro_bc h1

theorem apart_noOverlap {bc : Nat} {prog : Nat → List Op} (hap : Apart bc prog) : ∀ {sched : List Nat} {s : St}, s.tab.bc = bc →
    (∀ t, ∀ o ∈ (s.th t).calls, o ∈ prog t) → NoOverlap s sched
  | [], _, _, _ => trivial
  | t :: ts, s, hb, h => by
    refine ⟨fun u hu o os hc hB => ?_, fun s' e => apart_noOverlap hap (by rw [step_bc e, hb]) fun u o ho => h u o (calls_step e u o ho)⟩
    obtain ⟨_, o', os', e1, e2⟩ := hB
    rw [hb] at e2
    exact hap u t hu o' (h u o' (by rw [e1]; simp)) o (h t o (by rw [hc]; simp)) e2

/-! ### Schedules -/

/-- Steps of one call. -/
inductive Path (o : Op) : Tab → Pc → Tab → Pc → Prop
  | refl {m pc} : Path o m pc m pc
  | step {m pc m1 pc1 m2 pc2} : micro o m pc = .ok (m1, .inl pc1) → Path o m1 pc1 m2 pc2 → Path o m pc m2 pc2

theorem Path.trans {o : Op} {m pc m1 pc1 m2 pc2} (h : Path o m pc m1 pc1) (h' : Path o m1 pc1 m2 pc2) : Path o m pc m2 pc2 := by
  induction h with
  | refl => exact h'
  | step e _ ih => exact .step e (ih h')

/-- The steps of one call up to its end. -/
def Done (o : Op) (m : Tab) (pc : Pc) (m' : Tab) (r : Res) : Prop :=
  ∃ m1 pc1, Path o m pc m1 pc1 ∧ micro o m1 pc1 = .ok (m', .inr r)

/-- A state that a schedule leads to. -/
def Reach (s s' : St) : Prop := ∃ sched, run s sched = .ok s'

theorem Reach.trans {s s1 s2 : St} (h : Reach s s1) (h' : Reach s1 s2) : Reach s s2 := by
  obtain ⟨a, ha⟩ := h
  obtain ⟨b, hb⟩ := h'
  exact ⟨a ++ b, by rw [run_append, ha]; exact hb⟩

theorem Reach.refl (s : St) : Reach s s := ⟨[], rfl⟩

theorem Reach.of_step {s s' : St} {t : Nat} (h : step s t = .ok s') : Reach s s' := ⟨[t], by simp only [run, h]; rfl⟩

theorem Reach.error {s s1 : St} {t : Nat} {e : UB} (h : Reach s s1) (h' : step s1 t = .error e) : ∃ sched, run s sched = .error e := by
  obtain ⟨a, ha⟩ := h
  exact ⟨a ++ [t], by rw [run_append, ha]; simp only [ok_bindE, run, h']; rfl⟩

theorem upd_upd {α : Type} (f : Nat → α) (t : Nat) (v w : α) : upd (upd f t v) t w = upd f t w := by
  funext u
  by_cases e : u = t
  · subst e; rw [upd_self, upd_self]
  · rw [upd_ne _ _ e, upd_ne _ _ e, upd_ne _ _ e]

theorem upd_same {α : Type} (f : Nat → α) {t : Nat} {v : α} (h : f t = v) : upd f t v = f := by
  funext u
  by_cases e : u = t
  · subst e; rw [upd_self, h]
  · rw [upd_ne _ _ e]

theorem reach_path {o : Op} {os : List Op} {out : List Res} {m m' : Tab} {pc pc' : Pc} (h : Path o m pc m' pc') : ∀ {th : Nat → Thread} {t : Nat},
    th t = ⟨o :: os, pc, out⟩ → Reach ⟨m, th⟩ ⟨m', upd th t ⟨o :: os, pc', out⟩⟩ := by
  induction h with
  | refl => intro th t ht; rw [upd_same _ ht]; exact .refl _
  | @step m pc m1 pc1 m2 pc2 e p ih =>
    intro th t ht
    have h1 : step ⟨m, th⟩ t = .ok ⟨m1, upd th t ⟨o :: os, pc1, (th t).out⟩⟩ := step_inl (s := ⟨m, th⟩) (by dsimp only; rw [ht]) (by dsimp only; rw [ht]; exact e)
    rw [ht] at h1
    have h2 := ih (th := upd th t ⟨o :: os, pc1, out⟩) (t := t) (upd_self _ _ _)
    rw [upd_upd] at h2
    exact (Reach.of_step h1).trans h2

theorem reach_done {o : Op} {os : List Op} {out : List Res} {m m' : Tab} {pc : Pc} {r : Res} (h : Done o m pc m' r) {th : Nat → Thread} {t : Nat}
    (ht : th t = ⟨o :: os, pc, out⟩) : Reach ⟨m, th⟩ ⟨m', upd th t ⟨os, .idle, out ++ [r]⟩⟩ := by
  obtain ⟨m1, pc1, p, e⟩ := h
  refine (reach_path p ht).trans ?_
  have h1 : step ⟨m1, upd th t ⟨o :: os, pc1, out⟩⟩ t = .ok _ :=
    step_inr (s := ⟨m1, upd th t ⟨o :: os, pc1, out⟩⟩) (o := o) (os := os) (m := m') (r := r) (by dsimp only; rw [upd_self]) (by dsimp only; rw [upd_self]; exact e)
  dsimp only at h1
  rw [upd_self, upd_upd] at h1
  exact Reach.of_step h1

theorem step_at_err {o : Op} {os : List Op} {out : List Res} {m : Tab} {pc : Pc} {e : UB} (h : micro o m pc = .error e) {th : Nat → Thread} {t : Nat}
    (ht : th t = ⟨o :: os, pc, out⟩) : step ⟨m, th⟩ t = .error e :=
  step_err (s := ⟨m, th⟩) (o := o) (os := os) (by dsimp only; rw [ht]) (by dsimp only; rw [ht]; exact h)

/-- Steps inside of a bucket. -/
theorem on_path {o : Op} {l : Nat} {q q' : Mem} {pc pc' : Sbshare.Pc} (h : Sbshare.Path (inner o) q pc q' pc') : ∀ {m : Tab}, m.lists l = some q →
    Path o m (.on l pc) { m with lists := upd m.lists l (some q') } (.on l pc') := by
  induction h with
  | refl => intro m hm; rw [upd_same _ hm]; exact .refl
  | @step q pc q1 pc1 q2 pc2 e p ih =>
    intro m hm
    refine .step (m1 := { m with lists := upd m.lists l (some q1) }) (pc1 := .on l pc1) ?_ ?_
    · simp only [micro, hm, e, ok_bindE]; rfl
    · have := ih (m := { m with lists := upd m.lists l (some q1) }) (upd_self _ _ _)
      dsimp only at this
      rw [upd_upd] at this
      exact this

theorem on_done {o : Op} {l : Nat} {q q' : Mem} {pc : Sbshare.Pc} {r : Sbshare.Res} {m : Tab} (hm : m.lists l = some q)
    (h : Sbshare.micro (inner o) q pc = .ok (q', .inr r)) :
    micro o m (.on l pc) = .ok ({ m with lists := upd m.lists l (some q') }, .inr (give r)) := by
  simp only [micro, hm, h, ok_bindE]; rfl

/-- `sblist_add` on a list that was just made. -/
theorem add_fresh {ds : Nat} (hds : 0 < ds) (hb : 8 * ds < 2^64) {x : List Byte} (hx : x.length = ds) (v : Bool × (Nat → Byte)) :
    ∃ q q' pc, Sbshare.Path (.add x (some v)) (fresh ds) .idle q pc ∧ Sbshare.micro (.add x (some v)) q pc = .ok (q', .inr (.int 1)) ∧ Good ds q' [x] := by
  obtain ⟨stay, fn⟩ := v
  let B : List Byte := (List.range (8 * ds)).map fn
  have hBl : B.length = 8 * ds := by simp [B]
  let H : Nat → Option (List Byte) := upd (fresh ds).heap 1 (some B)
  let q1 : Mem := ⟨ds, 8, 1, 8, 1, H, 2⟩
  have hH : q1.heap 1 = some B := upd_self (fresh ds).heap 1 (some B)
  have h8 : szt 8 = 8 := rfl
  have h1 : szt 1 = 1 := rfl
  have hn : szt (8 * ds) = 8 * ds := szt_of_lt hb
  have p1 : Sbshare.Path (.add x (some (stay, fn))) (fresh ds) .idle q1 .pos := by
    refine (Sbshare.add_call (m := fresh ds) rfl).trans (.step (m1 := ⟨ds, 8, 0, 0, 0, H, 2⟩) (pc1 := .capl 1) ?_
      (.step (m1 := ⟨ds, 8, 0, 0, 0, H, 2⟩) (pc1 := .caps 1 0) rfl (.step (m1 := ⟨ds, 8, 0, 8, 0, H, 2⟩) (pc1 := .setit 1) ?_
      (.step (m1 := ⟨ds, 8, 0, 8, 1, H, 2⟩) (pc1 := .inc) rfl (.step (m1 := ⟨ds, 8, 0, 8, 1, H, 2⟩) (pc1 := .incs 0) rfl (.step ?_ .refl))))))
    · simp only [Sbshare.micro, Sbshare.regrow, Sbshare.block, fresh, Sbshare.growOf, if_true, pure_eq_ok, ok_bindE, ne_eq, not_true_eq_false,
        and_false, if_false, Nat.zero_add, hn, List.take_nil, List.nil_append, List.length_nil, Nat.sub_zero]
      rfl
    · simp only [Sbshare.micro, Nat.zero_add, h8]; rfl
    · simp only [Sbshare.micro, Nat.zero_add, h1]; rfl
  have p2 := Sbshare.add_cpy (m := q1) (x := x) (g := some (stay, fn)) (n := 0) rfl hds (by show (0 + 1) * ds < 2^64; omega)
  obtain ⟨H2, p3, h2, h3⟩ := Sbshare.cpy_path (o := .add x (some (stay, fn))) (m := q1) (q := 1) (off := 0 * ds) hH hx
    (by rw [hBl]; show 0 * ds + ds ≤ _; omega) 0 ds (by show 0 + ds ≤ ds; omega)
  rw [Nat.zero_add] at p3
  refine ⟨_, _, _, (p1.trans p2).trans p3, Sbshare.cpy_done (m := { q1 with heap := H2 }), rfl, rfl, ⟨⟨hds, rfl, ?_, (show 1 ≤ 8 by omega), B.drop ds, ?_, ?_⟩, ?_, ?_, fun p hp => ?_⟩⟩
  · intro y hy
    cases List.mem_singleton.1 hy
    exact hx
  · show (H2 1).getD [] = _
    rw [h3]
    simp only [Sbshare.given, Option.getD_some, Nat.zero_mul, Nat.zero_add, List.take_zero, List.nil_append, List.drop_zero, List.flatten_cons,
      List.flatten_nil, List.append_nil]
    rw [List.take_of_length_le (by omega)]
  · show (B.drop ds).length = (8 - 1) * ds
    simp [hBl]; omega
  · show (H2 1).isSome
    rw [h3]; rfl
  · show H2 0 = _
    rw [h2 0 (by omega)]; rfl
  · have hp : 2 ≤ p := hp
    show H2 p = _
    rw [h2 p (by omega)]
    show upd _ _ _ _ = _
    rw [upd_ne _ _ (by omega)]
    simp [fresh, show p ≠ 0 by omega]

/-- `hashlist_add` from the call of `sblist_new` to its end. -/
theorem mk_add {m : Tab} (hds : 0 < m.ds) (hb : 8 * m.ds < 2^64) {h : BitVec 32} {x : List Byte} (hx : x.length = m.ds) (v : Bool × (Nat → Byte)) (d : Nat) :
    ∃ q, Good m.ds q [x] ∧ Done (.add h x true (some v)) m (.mk d)
      { m with lists := upd m.lists m.next (some q), next := m.next + 1, slots := upd m.slots d (some m.next) } (.int 0) := by
  obtain ⟨q, q', pc, p1, p2, p3⟩ := add_fresh hds hb hx v
  let o : Op := .add h x true (some v)
  let m1 : Tab := { m with lists := upd m.lists m.next (some (fresh m.ds)), next := m.next + 1 }
  let m2 : Tab := { m1 with slots := upd m.slots d (some m.next) }
  have hs : m2.slots d = some m.next := upd_self m.slots d (some m.next)
  have hl : m2.lists m.next = some (fresh m.ds) := upd_self m.lists m.next (some (fresh m.ds))
  have e1 : micro o m (.mk d) = .ok (m1, .inl (.st d (some m.next))) := rfl
  have e2 : micro o m1 (.st d (some m.next)) = .ok (m2, .inl (.tst d)) := rfl
  have e3 : micro o m2 (.tst d) = .ok (m2, .inl (.ld d)) := by simp only [micro, hs]; rfl
  have e4 : micro o m2 (.ld d) = .ok (m2, .inl (.on m.next .idle)) := by simp only [micro, hs]; rfl
  have e5 := on_path (o := o) p1 hl
  refine ⟨q', p3, _, _, .step e1 (.step e2 (.step e3 (.step e4 e5))), ?_⟩
  have h3 : Tab.lists { m2 with lists := upd m2.lists m.next (some q) } m.next = some q := upd_self m2.lists m.next (some q)
  have p4 : Sbshare.micro (inner o) q pc = .ok (q', .inr (.int 1)) := p2
  rw [on_done h3 p4]
  simp only [m2, m1, upd_upd]
  rfl

/-- `hashlist_add` up to the call of `sblist_new`. -/
theorem idle_mk {m : Tab} {h : BitVec 32} {x : List Byte} {hdr : Bool} {g : Grow} (hbc : 0 < m.bc) (hs : m.slots (bkt m.bc (.add h x hdr g)) = none) :
    Path (.add h x hdr g) m .idle m (.mk (bkt m.bc (.add h x hdr g))) := by
  refine .step ?_ .refl
  have : slotOf m (.add h x hdr g) = .ok (bkt m.bc (.add h x hdr g)) := by unfold slotOf; rw [if_neg (by omega)]; rfl
  simp only [micro, this, ok_bindE, hs]; rfl

theorem step_other {s s' : St} {t u : Nat} (h : step s t = .ok s') (hu : u ≠ t) : s'.th u = s.th u := by
  unfold step at h
  dsimp only at h
  split at h
  · cases h; rfl
  · rw [Frame.bind_ok] at h
    obtain ⟨⟨m, pc | r⟩, _, h⟩ := h <;> cases h <;> exact upd_ne _ _ hu

theorem run_other {t u : Nat} (hu : u ≠ t) : ∀ {k : Nat} {s s' : St}, run s (List.replicate k t) = .ok s' → s'.th u = s.th u
  | 0, s, s', h => by cases h; rfl
  | k + 1, s, s', h => by
    simp only [List.replicate_succ, run] at h
    rw [Frame.bind_ok] at h
    obtain ⟨s1, e, h⟩ := h
    rw [run_other hu h, step_other e hu]

theorem one_noOverlap {t : Nat} : ∀ {k : Nat} {s : St}, (∀ u, u ≠ t → (s.th u).pc = .idle) → NoOverlap s (List.replicate k t)
  | 0, _, _ => trivial
  | k + 1, s, h => ⟨fun u hu _ _ _ hB => hB.1 (h u hu), fun s' e => one_noOverlap fun u hu => by rw [step_other e hu]; exact h u hu⟩

theorem noOverlap_append : ∀ {a b : List Nat} {s : St}, NoOverlap s a → (∀ s', run s a = .ok s' → NoOverlap s' b) → NoOverlap s (a ++ b)
  | [], _, s, _, h => h s rfl
  | t :: a, b, s, h1, h2 => ⟨h1.1, fun s' e => noOverlap_append (h1.2 s' e) fun s2 e2 => h2 s2 (by simp only [run, e]; exact e2)⟩

/-! ### One bucket is an sblist -/

theorem micro_ne_idle {o : Sbshare.Op} {q q' : Mem} {pc pc' : Sbshare.Pc} (h : Sbshare.micro o q pc = .ok (q', .inl pc')) : pc' ≠ .idle := by
  rintro rfl
  cases pc with
  | idle =>
    cases o <;> simp only [Sbshare.micro] at h
    · cases h
    · split at h <;> cases h
    · split at h <;> cases h
  | gcap c => simp only [Sbshare.micro] at h; split at h <;> cases h
  | gcall p k =>
    simp only [Sbshare.micro] at h
    rw [Frame.bind_ok] at h
    obtain ⟨⟨a, b⟩, _, h⟩ := h
    cases b <;> cases h
  | chk p => simp only [Sbshare.micro] at h; split at h <;> cases h
  | cpy a b k =>
    simp only [Sbshare.micro] at h
    split at h
    · rw [Frame.bind_ok] at h
      obtain ⟨_, _, h⟩ := h
      rw [Frame.bind_ok] at h
      obtain ⟨_, _, h⟩ := h
      rw [Frame.bind_ok] at h
      obtain ⟨_, _, h⟩ := h
      cases h
    · cases h
  | lrd a b acc =>
    simp only [Sbshare.micro] at h
    split at h
    · rw [Frame.bind_ok] at h
      obtain ⟨_, _, h⟩ := h
      rw [Frame.bind_ok] at h
      obtain ⟨_, _, h⟩ := h
      cases h
    · cases h
  | gptr => cases h
  | gcap2 p => cases h
  | capl p => cases h
  | caps p v => cases h
  | setit p => cases h
  | inc => cases h
  | incs v => cases h
  | pos => cases h
  | addr p => cases h
  | laddr p => cases h

/-- The threads on the hashlist do what the threads on the list do. -/
structure Sim (m : Tab) (d l : Nat) (s : Sbshare.St) (s' : St) : Prop where
  tab : s'.tab = { m with lists := upd m.lists l (some s.mem) }
  calls : ∀ t, (s'.th t).calls.map inner = (s.th t).calls
  out : ∀ t, (s'.th t).out = (s.th t).out.map give
  bkt : ∀ t, ∀ o ∈ (s'.th t).calls, bkt m.bc o = d
  idle : ∀ t, (s.th t).pc = .idle → (s'.th t).pc = .idle
  on : ∀ t, (s.th t).pc ≠ .idle → (s'.th t).pc = .on l (s.th t).pc

theorem to_on {m : Tab} {o : Op} {l : Nat} (hbc : 0 < m.bc) (hs : m.slots (bkt m.bc o) = some l) : Path o m .idle m (.on l .idle) := by
  have h : slotOf m o = .ok (Spec.bkt m.bc o) := by unfold slotOf; rw [if_neg (by omega)]; rfl
  cases o with
  | add a x hdr g =>
    refine .step (m1 := m) (pc1 := .ld (bkt m.bc (.add a x hdr g))) ?_ (.step ?_ .refl)
    · simp only [micro, h, ok_bindE, hs]; rfl
    · simp only [micro, hs]; rfl
  | look a i =>
    refine .step ?_ .refl
    simp only [micro, h, ok_bindE, hs]; rfl

theorem sim_step {m : Tab} {d l : Nat} (hbc : 0 < m.bc) (hs : m.slots d = some l) {s : Sbshare.St} {s' : St} (h : Sim m d l s s') (t : Nat) :
    (∀ e, Sbshare.step s t = .error e → ∃ sched, run s' sched = .error e) ∧
    ∀ s1, Sbshare.step s t = .ok s1 → ∃ s1', Reach s' s1' ∧ Sim m d l s1 s1' := by
  cases hc : (s'.th t).calls with
  | nil =>
    have : (s.th t).calls = [] := by rw [← h.calls t, hc]; rfl
    rw [Sbshare.step_nil this]
    exact ⟨fun e he => (by cases he), fun s1 h1 => (by cases h1; exact ⟨s', .refl _, h⟩)⟩
  | cons o os =>
    have hcs : (s.th t).calls = inner o :: os.map inner := by rw [← h.calls t, hc]; rfl
    have hbk := h.bkt t o (by rw [hc]; simp)
    obtain ⟨tab, th⟩ := s'
    have htab : tab = { m with lists := upd m.lists l (some s.mem) } := h.tab
    have hon : Reach ⟨tab, th⟩ ⟨tab, upd th t ⟨o :: os, .on l (s.th t).pc, (th t).out⟩⟩ := by
      by_cases hp : (s.th t).pc = .idle
      · have h1 := h.idle t hp
        rw [hp]
        refine reach_path (to_on (by rw [htab]; exact hbc) (by rw [htab]; show m.slots (bkt m.bc o) = _; rw [hbk, hs])) ?_
        show th t = _
        rw [← h1, ← hc]
      · have h1 := h.on t hp
        rw [← h1, ← hc, upd_same _ rfl]
        exact .refl _
    have hlist : tab.lists l = some s.mem := by rw [htab]; exact upd_self _ _ _
    cases hm : Sbshare.micro (inner o) s.mem (s.th t).pc with
    | error e =>
      rw [Sbshare.step_err hcs hm]
      refine ⟨fun e' he => ?_, fun s1 h1 => (by cases h1)⟩
      cases he
      refine hon.error (step_at_err (e := e) ?_ (upd_self _ _ _))
      simp only [micro, hlist, hm]; rfl
    | ok v =>
      obtain ⟨q, pc | r⟩ := v
      · rw [Sbshare.step_inl hcs hm]
        refine ⟨fun e he => (by cases he), fun s1 h1 => ?_⟩
        cases h1
        have p : Path o tab (.on l (s.th t).pc) { tab with lists := upd tab.lists l (some q) } (.on l pc) :=
          .step (by simp only [micro, hlist, hm, ok_bindE]; rfl) .refl
        have r2 := reach_path (os := os) (out := (th t).out) p (th := upd th t ⟨o :: os, .on l (s.th t).pc, (th t).out⟩) (t := t) (upd_self _ _ _)
        rw [upd_upd] at r2
        refine ⟨_, hon.trans r2, ?_⟩
        have hne := micro_ne_idle hm
        refine ⟨?_, fun u => ?_, fun u => ?_, fun u => ?_, fun u => ?_, fun u => ?_⟩
        · rw [htab]; simp only [upd_upd]
        · by_cases e : u = t
          · subst e; simp only [upd_self]; rfl
          · simp only [upd_ne _ _ e]; exact h.calls u
        · by_cases e : u = t
          · subst e; simp only [upd_self]; exact h.out u
          · simp only [upd_ne _ _ e]; exact h.out u
        · by_cases e : u = t
          · subst e; simp only [upd_self]; have := h.bkt u; rw [hc] at this; exact this
          · simp only [upd_ne _ _ e]; exact h.bkt u
        · by_cases e : u = t
          · subst e; simp only [upd_self]; exact fun h0 => absurd h0 hne
          · simp only [upd_ne _ _ e]; exact h.idle u
        · by_cases e : u = t
          · subst e; simp only [upd_self]; exact fun _ => trivial
          · simp only [upd_ne _ _ e]; exact h.on u
      · rw [Sbshare.step_inr hcs hm]
        refine ⟨fun e he => (by cases he), fun s1 h1 => ?_⟩
        cases h1
        have p : Done o tab (.on l (s.th t).pc) { tab with lists := upd tab.lists l (some q) } (give r) :=
          ⟨_, _, .refl, by simp only [micro, hlist, hm, ok_bindE]; rfl⟩
        have r2 := reach_done (os := os) (out := (th t).out) p (th := upd th t ⟨o :: os, .on l (s.th t).pc, (th t).out⟩) (t := t) (upd_self _ _ _)
        rw [upd_upd] at r2
        refine ⟨_, hon.trans r2, ?_⟩
        refine ⟨?_, fun u => ?_, fun u => ?_, fun u => ?_, fun u => ?_, fun u => ?_⟩
        · rw [htab]; simp only [upd_upd]
        · by_cases e : u = t
          · subst e; simp only [upd_self]
          · simp only [upd_ne _ _ e]; exact h.calls u
        · by_cases e : u = t
          · subst e; simp only [upd_self, List.map_append]; rw [← h.out u]; rfl
          · simp only [upd_ne _ _ e]; exact h.out u
        · by_cases e : u = t
          · subst e; simp only [upd_self]
            intro o' ho'
            exact h.bkt u o' (by rw [hc]; exact List.mem_cons_of_mem _ ho')
          · simp only [upd_ne _ _ e]; exact h.bkt u
        · by_cases e : u = t
          · subst e; simp only [upd_self]; intro _; trivial
          · simp only [upd_ne _ _ e]; exact h.idle u
        · by_cases e : u = t
          · subst e; simp only [upd_self]; intro h0; exact absurd rfl h0
          · simp only [upd_ne _ _ e]; exact h.on u

theorem sim_run {m : Tab} {d l : Nat} (hbc : 0 < m.bc) (hs : m.slots d = some l) : ∀ (sched : List Nat) {s : Sbshare.St} {s' : St}, Sim m d l s s' →
    (∀ e, Sbshare.run s sched = .error e → ∃ sched, run s' sched = .error e) ∧
    ∀ s1, Sbshare.run s sched = .ok s1 → ∃ s1', Reach s' s1' ∧ Sim m d l s1 s1'
  | [], s, s', h => ⟨fun e he => (by cases he), fun s1 h1 => (by cases h1; exact ⟨s', .refl _, h⟩)⟩
  | t :: ts, s, s', h => by
    obtain ⟨h1, h2⟩ := sim_step hbc hs h t
    simp only [Sbshare.run]
    cases hm : Sbshare.step s t with
    | error e =>
      refine ⟨fun e' he => ?_, fun s1 h1 => (by cases h1)⟩
      cases he
      exact h1 e hm
    | ok s1 =>
      obtain ⟨s1', r1, i1⟩ := h2 s1 hm
      obtain ⟨h3, h4⟩ := sim_run hbc hs ts i1
      refine ⟨fun e he => ?_, fun s2 h5 => ?_⟩
      · obtain ⟨sc, hsc⟩ := h3 e he
        obtain ⟨sa, hsa⟩ := r1
        exact ⟨sa ++ sc, by rw [run_append, hsa]; exact hsc⟩
      · obtain ⟨s2', r2, i2⟩ := h4 s2 h5
        exact ⟨s2', r1.trans r2, i2⟩

end Ulz.Hlshare
