import Verif.Model.Anylist
import Verif.Proofs.Sblist
import Verif.Proofs.Tlist
import Verif.Proofs.Tglist
/-! Each list type gives the answers of a mathematical list. -/
namespace Ulz.Anylist
open Spec
open Ulz.Sblist (mul_lt_of)

theorem length_after {xs : List (List Byte)} {isz c} (h : CallOk isz xs c) : (after xs c).length ≤ xs.length + 1 := by
  cases c with
  | append x => simp [after]
  | insert x pos => simp [after, CallOk] at *; omega
  | delete i => simp [after, List.length_eraseIdx]; split <;> omega
  | get i => simp [after]
  | size => simp [after]

theorem sbCall_spec {l : Sblist.SB} {xs} (h : Sblist.Spec.Rep l xs) (hbi : 0 < l.blockitems)
    (hb : (l.count + l.blockitems) * l.itemsize < 2^64) (f : Nat → Byte) (c : Call) (hc : CallOk l.itemsize xs c) :
    ∃ l', sbCall f l c = .ok (l', answer xs c) ∧ Sblist.Spec.Rep l' (after xs c) ∧ l'.itemsize = l.itemsize ∧
      l'.blockitems = l.blockitems := by
  have hcn := h.count
  cases c with
  | append x =>
    obtain ⟨l', r, ys, h1, h2, h3, h4, h5, _⟩ := Sblist.step_spec h hbi hb (.add x (some f)) hc
    cases h2
    refine ⟨l', ?_, h3, h4, h5⟩
    simp only [Sblist.step] at h1
    simp only [sbCall]
    revert h1
    cases Sblist.add (some f) l x with
    | error e => intro h1; cases h1
    | ok v => obtain ⟨a, b⟩ := v; intro h1; cases h1; rfl
  | insert x pos =>
    obtain ⟨l', r, ys, h1, h2, h3, h4, h5, _⟩ := Sblist.step_spec h hbi hb (.insert x pos (some f)) ⟨hc.1, by rw [hcn]; exact hc.2⟩
    cases h2
    refine ⟨l', ?_, h3, h4, h5⟩
    simp only [Sblist.step] at h1
    simp only [sbCall]
    revert h1
    cases Sblist.insert (some f) l x pos with
    | error e => intro h1; cases h1
    | ok v => obtain ⟨a, b⟩ := v; intro h1; cases h1; rfl
  | delete i =>
    obtain ⟨l', r, ys, h1, h2, h3, h4, h5, _⟩ := Sblist.step_spec h hbi hb (.delete i) trivial
    cases h2
    refine ⟨l', ?_, h3, h4, h5⟩
    simp only [Sblist.step] at h1
    simp only [sbCall]
    revert h1
    cases Sblist.delete l i with
    | error e => intro h1; cases h1
    | ok v => intro h1; cases h1; rfl
  | get i =>
    obtain ⟨l', r, ys, h1, h2, h3, h4, h5, _⟩ := Sblist.step_spec h hbi hb (.get i) trivial
    cases h2
    refine ⟨l', ?_, h3, h4, h5⟩
    simp only [Sblist.step] at h1
    simp only [sbCall]
    revert h1
    cases Sblist.content l (Sblist.get l i) with
    | error e => intro h1; cases h1
    | ok v => intro h1; cases h1; rfl
  | size => exact ⟨l, by simp only [sbCall, answer, hcn]; rfl, h, rfl, rfl⟩

theorem sbRun_spec (f : Nat → Byte) : ∀ (cs : List Call) (l : Sblist.SB) (xs : List (List Byte)), Sblist.Spec.Rep l xs →
    0 < l.blockitems → (l.count + cs.length + l.blockitems) * l.itemsize < 2^64 → InRange l.itemsize xs cs →
    ∃ l', sbRun f l cs = .ok (l', answers xs cs)
  | [], l, xs, _, _, _, _ => ⟨l, rfl⟩
  | c :: cs, l, xs, h, hbi, hb, hr => by
    rw [List.length_cons] at hb
    obtain ⟨l', h1, h2, h3, h4⟩ := sbCall_spec h hbi (mul_lt_of hb (by omega)) f c hr.1
    have hl := length_after hr.1
    obtain ⟨l2, r1⟩ := sbRun_spec f cs l' _ h2 (by omega)
      (by rw [h3, h4]; exact mul_lt_of hb (by rw [h2.count]; have := h.count; omega)) (by rw [h3]; exact hr.2)
    exact ⟨l2, by simp only [sbRun, h1, ok_bind, r1]; rfl⟩

theorem tgCall_spec {isz} {l : Tglist.TG} {xs} (h : Tglist.Spec.Rep isz l xs)
    (hb : (2 * l.count + 4) * isz < 2^64) (f : Nat → Byte) (c : Call) (hc : CallOk isz xs c) :
    ∃ l', tgCall isz f l c = .ok (l', answer xs c) ∧ Tglist.Spec.Rep isz l' (after xs c) := by
  have hcn := h.count
  cases c with
  | append x =>
    obtain ⟨l', r, ys, h1, h2, h3, _⟩ := Tglist.step_spec h hb (.add x (some f)) hc
    cases h2
    refine ⟨l', ?_, h3⟩
    simp only [Tglist.step] at h1
    simp only [tgCall]
    revert h1
    cases Tglist.add isz (some f) l x with
    | error e => intro h1; cases h1
    | ok v => obtain ⟨a, b⟩ := v; intro h1; cases h1; rfl
  | insert x pos =>
    obtain ⟨l', r, ys, h1, h2, h3, _⟩ := Tglist.step_spec h hb (.insert x pos (some f)) ⟨hc.1, by rw [hcn]; exact hc.2⟩
    cases h2
    refine ⟨l', ?_, h3⟩
    simp only [Tglist.step] at h1
    simp only [tgCall]
    revert h1
    cases Tglist.insert isz (some f) l x pos with
    | error e => intro h1; cases h1
    | ok v => obtain ⟨a, b⟩ := v; intro h1; cases h1; rfl
  | delete i =>
    obtain ⟨l', r, ys, h1, h2, h3, _⟩ := Tglist.step_spec h hb (.delete i) (by show i < l.count; rw [hcn]; exact hc)
    cases h2
    refine ⟨l', ?_, h3⟩
    simp only [Tglist.step] at h1
    simp only [tgCall]
    revert h1
    cases Tglist.delete isz l i with
    | error e => intro h1; cases h1
    | ok v => intro h1; cases h1; rfl
  | get i =>
    have hi : i < xs.length := hc
    refine ⟨l, ?_, h⟩
    simp only [tgCall]
    rw [Tglist.get_spec h (mul_lt_of hb (by omega)) hi]
    simp only [answer, List.getElem?_eq_getElem hi]
    rfl
  | size => exact ⟨l, by simp only [tgCall, answer, hcn]; rfl, h⟩

theorem tgRun_spec {isz} (f : Nat → Byte) : ∀ (cs : List Call) (l : Tglist.TG) (xs : List (List Byte)),
    Tglist.Spec.Rep isz l xs → (2 * (l.count + cs.length) + 4) * isz < 2^64 → InRange isz xs cs →
    ∃ l', tgRun isz f l cs = .ok (l', answers xs cs)
  | [], l, xs, _, _, _ => ⟨l, rfl⟩
  | c :: cs, l, xs, h, hb, hr => by
    rw [List.length_cons] at hb
    obtain ⟨l', h1, h2⟩ := tgCall_spec h (mul_lt_of hb (by omega)) f c hr.1
    have hl := length_after hr.1
    obtain ⟨l2, r1⟩ := tgRun_spec f cs l' _ h2
      (mul_lt_of hb (by rw [h2.count]; have := h.count; omega)) hr.2
    exact ⟨l2, by simp only [tgRun, h1, ok_bind, r1]; rfl⟩

open Tglist (IRep look iidx_spec iget) in
theorem tgiCall_spec {w isz l idxs vals} (h : IRep w isz l idxs vals) (hw : (2 * vals.length + 4) * w < 2^64)
    (hic : l.index.count ≤ vals.length) (hs : (2 * vals.length + 4) * isz < 2^64) (hlt : vals.length < 256^w)
    (f : Nat → Byte) (c : Call) (hc : CallOk isz (look vals idxs) c) :
    ∃ l' idxs' vals', tgiCall w isz f l c = .ok (l', answer (look vals idxs) c) ∧ IRep w isz l' idxs' vals' ∧
      look vals' idxs' = after (look vals idxs) c ∧ vals'.length ≤ vals.length + 1 ∧ l'.index.count ≤ vals'.length := by
  have hcc : l.index.count = (look vals idxs).length := by have := h.index.count; simpa [look] using this
  cases c with
  | append x =>
    obtain ⟨l', r, i', v', h1, h2, h3, h4, h5⟩ := Tglist.istep_spec h hw hic hs hlt (.add x (some f) (some f)) hc
    generalize hL : look v' i' = L at h2
    cases h2 with
    | addFail hh => rcases hh with hh | hh <;> cases hh
    | add =>
    refine ⟨l', i', v', ?_, h3, hL, h4, h5⟩
    simp only [Tglist.istep] at h1
    simp only [tgiCall]
    revert h1
    cases Tglist.iadd w isz (some f) (some f) l x with
    | error e => intro h1; cases h1
    | ok v => obtain ⟨a, b⟩ := v; intro h1; cases h1; rfl
  | insert x pos =>
    obtain ⟨l', r, i', v', h1, h2, h3, h4, h5⟩ := Tglist.istep_spec h hw hic hs hlt (.insert x pos (some f) (some f))
      ⟨hc.1, by rw [hcc]; exact hc.2⟩
    generalize hL : look v' i' = L at h2
    cases h2 with
    | insertFail _ hh => rcases hh with hh | hh <;> cases hh
    | insert _ =>
    refine ⟨l', i', v', ?_, h3, hL, h4, h5⟩
    simp only [Tglist.istep] at h1
    simp only [tgiCall]
    revert h1
    cases Tglist.iinsert w isz (some f) (some f) l x pos with
    | error e => intro h1; cases h1
    | ok v => obtain ⟨a, b⟩ := v; intro h1; cases h1; rfl
  | delete i =>
    obtain ⟨l', r, i', v', h1, h2, h3, h4, h5⟩ := Tglist.istep_spec h hw hic hs hlt (.delete i)
      (by show i < l.index.count; rw [hcc]; exact hc)
    generalize hL : look v' i' = L at h2
    cases h2
    refine ⟨l', i', v', ?_, h3, hL, h4, h5⟩
    simp only [Tglist.istep] at h1
    simp only [tgiCall]
    revert h1
    cases Tglist.idelete w l i with
    | error e => intro h1; cases h1
    | ok v => intro h1; cases h1; rfl
  | get i =>
    have hi : i < (look vals idxs).length := hc
    have hp : i < idxs.length := by simpa [look] using hi
    refine ⟨l, idxs, vals, ?_, h, rfl, by omega, hic⟩
    simp only [tgiCall, iget]
    rw [iidx_spec h (mul_lt_of hw (by omega)) hp]
    simp only [ok_bind]
    rw [Tglist.get_spec h.items (mul_lt_of hs (by rw [h.items.count]; omega)) (h.lt _ (List.getElem_mem hp))]
    simp only [answer, List.getElem?_eq_getElem hi]
    simp [look, List.getD_eq_getElem?_getD, h.lt _ (List.getElem_mem hp), pure_eq_ok]
  | size => exact ⟨l, idxs, vals, by simp only [tgiCall, answer, hcc]; rfl, h, rfl, by omega, hic⟩

open Tglist (IRep look) in
theorem tgiRun_spec {w isz} (f : Nat → Byte) : ∀ (cs : List Call) (l : Tglist.TGI) (idxs : List Nat) (vals : List (List Byte)),
    IRep w isz l idxs vals → l.index.count ≤ vals.length → (2 * (vals.length + cs.length) + 4) * w < 2^64 →
    (2 * (vals.length + cs.length) + 4) * isz < 2^64 → vals.length + cs.length ≤ 256^w → InRange isz (look vals idxs) cs →
    ∃ l', tgiRun w isz f l cs = .ok (l', answers (look vals idxs) cs)
  | [], l, _, _, _, _, _, _, _, _ => ⟨l, rfl⟩
  | c :: cs, l, idxs, vals, h, hic, hw, hs, hf, hr => by
    rw [List.length_cons] at hw hs hf
    obtain ⟨l', i', v', h1, h2, h3, h4, h5⟩ := tgiCall_spec h (mul_lt_of hw (by omega)) hic (mul_lt_of hs (by omega))
      (by omega) f c hr.1
    obtain ⟨l2, r1⟩ := tgiRun_spec f cs l' i' v' h2 h5 (mul_lt_of hw (by omega)) (mul_lt_of hs (by omega)) (by omega)
      (by rw [h3]; exact hr.2)
    exact ⟨l2, by simp only [tgiRun, h1, ok_bind, r1, h3]; rfl⟩

open Tlist (TL) in
open Tlist.Spec (WF Tr Fresh) in
theorem tlCall_spec {t : TL} {T : Tr} (h : WF t T) (hs : T.size + 1 < 2^32) (mem : Nat) (c : Call)
    (hc : CallOk t.itemsize T.items c) (hf : (∃ x, c = .append x) ∨ (∃ x i, c = .insert x i) → Fresh t mem) :
    ∃ t' T', tlCall mem t c = .ok (t', answer T.items c) ∧ WF t' T' ∧ T'.items = after T.items c ∧ T'.size ≤ T.size + 1 := by
  have hl := Tlist.items_length T
  cases c with
  | append x =>
    obtain ⟨t', r, T', h1, h2, h3, h4⟩ := Tlist.step_spec h hs (.append x (some mem))
      ⟨hc, fun a ha => by cases ha; exact hf (.inl ⟨x, rfl⟩)⟩
    generalize hL : T'.items = L at h2
    cases h2
    refine ⟨t', T', ?_, h3, hL, h4⟩
    simp only [Tlist.step] at h1
    simp only [tlCall]
    revert h1
    cases Tlist.tlist_append t x (some mem) with
    | error e => intro h1; cases h1
    | ok v => obtain ⟨a, b⟩ := v; intro h1; cases h1; rfl
  | insert x i =>
    obtain ⟨t', r, T', h1, h2, h3, h4⟩ := Tlist.step_spec h hs (.insert i x (some mem))
      ⟨hc.1, fun a ha => by cases ha; exact hf (.inr ⟨x, i, rfl⟩)⟩
    generalize hL : T'.items = L at h2
    cases h2 with
    | insertOut ho => have := hc.2; omega
    | insert _ =>
    refine ⟨t', T', ?_, h3, hL, h4⟩
    simp only [Tlist.step] at h1
    simp only [tlCall]
    revert h1
    cases Tlist.tlist_insert t i x (some mem) with
    | error e => intro h1; cases h1
    | ok v => obtain ⟨a, b⟩ := v; intro h1; cases h1; rfl
  | delete i =>
    obtain ⟨t', r, T', h1, h2, h3, h4⟩ := Tlist.step_spec h hs (.delete i) trivial
    generalize hL : T'.items = L at h2
    cases h2 with
    | deleteOut ho => have : i < T.items.length := hc; omega
    | delete _ =>
    refine ⟨t', T', ?_, h3, hL, h4⟩
    simp only [Tlist.step] at h1
    simp only [tlCall]
    revert h1
    cases Tlist.tlist_delete_impl t i false with
    | error e => intro h1; cases h1
    | ok v => obtain ⟨a, b⟩ := v; intro h1; cases h1; rfl
  | get i =>
    have hi : i < T.items.length := hc
    obtain ⟨t', r, T', h1, h2, h3, h4⟩ := Tlist.step_spec h hs (.get i) trivial
    generalize hL : T'.items = L at h2
    cases h2
    refine ⟨t', T', ?_, h3, hL, h4⟩
    simp only [Tlist.step] at h1
    simp only [tlCall]
    rw [Nat.mod_eq_of_lt (by omega)] at h1
    revert h1
    cases Tlist.tlist_get t i with
    | error e => intro h1; cases h1
    | ok v =>
      intro h1
      simp only [ok_bind, pure_eq_ok, Except.ok.injEq, Prod.mk.injEq, Tlist.Res.item.injEq] at h1 ⊢
      exact ⟨h1.1, by rw [answer, h1.2]⟩
  | size =>
    refine ⟨t, T, ?_, h, rfl, by omega⟩
    simp only [tlCall, answer, Tlist.getsize_spec h, ok_bind, hl]
    rfl

open Tlist (TL) in
open Tlist.Spec (WF Tr Fresh) in
theorem tlRun_spec (isz : Nat) (mem : Nat → Nat) : ∀ (cs : List Call) (k : Nat) (t : TL) (T : Tr), WF t T → t.itemsize = isz →
    T.size + cs.length < 2^32 → InRange isz T.items cs →
    (∀ pre c post, cs = pre ++ c :: post → (∃ x, c = .append x) ∨ (∃ x i, c = .insert x i) →
      ∀ t' r, tlRun mem k t pre = .ok (t', r) → Fresh t' (mem (k + pre.length))) →
    (∀ t mem c t' a, tlCall mem t c = .ok (t', a) → t'.itemsize = t.itemsize) →
    ∃ t', tlRun mem k t cs = .ok (t', answers T.items cs)
  | [], _, t, _, _, _, _, _, _, _ => ⟨t, rfl⟩
  | c :: cs, k, t, T, h, he, hs, hr, hv, hk => by
    rw [List.length_cons] at hs
    obtain ⟨t', T', h1, h2, h3, h4⟩ := tlCall_spec h (by omega) (mem k) c (by rw [he]; exact hr.1)
      (fun hh => hv [] c cs rfl hh t [] rfl)
    obtain ⟨t2, r1⟩ := tlRun_spec isz mem cs (k + 1) t' T' h2 ((hk _ _ _ _ _ h1).trans he) (by omega) (by rw [h3]; exact hr.2)
      (by
        intro pre c' post he' hh t'' r hr'
        have := hv (c :: pre) c' post (by rw [he']; rfl) hh t'' (_ :: r) (by simp only [tlRun, h1, ok_bind, hr']; rfl)
        rwa [List.length_cons, show k + (pre.length + 1) = k + 1 + pre.length by omega] at this) hk
    exact ⟨t2, by simp only [tlRun, h1, ok_bind, r1, h3]; rfl⟩

theorem tlCall_itemsize (t : Tlist.TL) (mem : Nat) (c : Call) (t' : Tlist.TL) (a : Ans) (h : tlCall mem t c = .ok (t', a)) :
    t'.itemsize = t.itemsize := by
  have hi : ∀ i x t' r, Tlist.tlist_insert t i x (some mem) = .ok (t', r) → t'.itemsize = t.itemsize := by
    intro i x t' r hh
    unfold Tlist.tlist_insert at hh
    cases hg : Tlist.tlist_getsize t with
    | error e => rw [hg] at hh; cases hh
    | ok n =>
      rw [hg] at hh
      simp only [ok_bind] at hh
      split at hh
      · cases hh; rfl
      · cases hn : Tlist.new_item t.heap (some mem) x t.itemsize t.seed with
        | error e => rw [hn] at hh; cases hh
        | ok v =>
          obtain ⟨v1, v2, v3⟩ := v
          rw [hn] at hh
          simp only [ok_bind] at hh
          split at hh
          · cases hh; rfl
          · cases hq : Tlist.insert (Tlist.depth n) v1 .root v2 (Tlist.u32 i) with
            | error e => rw [hq] at hh; cases hh
            | ok q => rw [hq] at hh; cases hh; rfl
  cases c with
  | append x =>
    simp only [tlCall, Tlist.tlist_append] at h
    cases hg : Tlist.tlist_getsize t with
    | error e => rw [hg] at h; cases h
    | ok n =>
      rw [hg] at h
      simp only [ok_bind] at h
      cases hq : Tlist.tlist_insert t n x (some mem) with
      | error e => rw [hq] at h; cases h
      | ok v =>
        obtain ⟨v1, v2⟩ := v
        rw [hq] at h
        cases h
        exact hi _ _ _ _ hq
  | insert x i =>
    simp only [tlCall] at h
    cases hq : Tlist.tlist_insert t i x (some mem) with
    | error e => rw [hq] at h; cases h
    | ok v =>
      obtain ⟨v1, v2⟩ := v
      rw [hq] at h
      cases h
      exact hi _ _ _ _ hq
  | delete i =>
    simp only [tlCall, Tlist.tlist_delete_impl] at h
    cases hg : Tlist.tlist_getsize t with
    | error e => rw [hg] at h; cases h
    | ok n =>
      rw [hg] at h
      simp only [ok_bind] at h
      split at h
      · cases h; rfl
      · cases h1 : Tlist.getitem (Tlist.depth n) t.heap (t.heap.ptr .root) (Tlist.u32 i) 0 with
        | error e => rw [h1] at h; cases h
        | ok v =>
          rw [h1] at h
          simp only [ok_bind, Bool.false_eq_true, if_false, pure_eq_ok] at h
          cases h2 : Tlist.removeAt (Tlist.depth n) t.heap .root (Tlist.u32 i) 0 with
          | error e => rw [h2] at h; cases h
          | ok q =>
            rw [h2] at h
            simp only [ok_bind] at h
            cases h3 : Tlist.hfree q v with
            | error e => rw [h3] at h; cases h
            | ok z => rw [h3] at h; cases h; rfl
  | get i =>
    simp only [tlCall] at h
    cases hg : Tlist.tlist_get t i with
    | error e => rw [hg] at h; cases h
    | ok n => rw [hg] at h; cases h; rfl
  | size =>
    simp only [tlCall] at h
    cases hg : Tlist.tlist_getsize t with
    | error e => rw [hg] at h; cases h
    | ok n => rw [hg] at h; cases h; rfl

end Ulz.Anylist
