import Verif.Proofs.Bashare
/-! C208: what threads get from a bit array without a lock. -/
namespace Ulz.Props
open Ulz Ulz.Bashare Ulz.Bashare.Spec

/-- Threads that use different bits of one array are right under every schedule exactly if no thread changes a bit in a byte where another one sets a bit. -/
theorem bitarray_threads_iff {x : List Byte} {prog : Nat → List Op} (hf : Fair x prog) :
    (∀ sched, ∃ s, run (start x prog) sched = .ok s ∧ Right x prog s) ↔
    ∀ t u, t ≠ u → ∀ b, Changes (bitOf x) (prog t) b → ¬SetsByte (prog u) b := by
  constructor
  · rintro h t u htu b ⟨pre, y, c, post, e, rfl, hne⟩ ⟨z, hz, c2, hset⟩
    obtain ⟨pre2, post2, e2⟩ := List.append_of_mem hset
    have hy : y < 8 * x.length := hf.inside t (.set y c) (by rw [e]; simp)
    have hz' : z < 8 * x.length := hf.inside u (.set z c2) hset
    have hzy : z ≠ y := hf.apart t u htu y ⟨c, by rw [e]; simp⟩ _ hset
    -- both threads up to the two calls
    obtain ⟨sc1, s1, r1, l1, b1, c1, p1, o1⟩ := run_alone (t := t) pre (s := start x prog) (rest := .set y c :: post) e rfl
      (fun o ho => hf.inside t o (by rw [e]; simp [ho]))
    obtain ⟨sc2, s2, r2, l2, b2, c2', p2, o2⟩ := run_alone (t := u) pre2 (s := s1) (rest := .set z c2 :: post2) (by rw [o1 u htu.symm]; exact e2)
      (by rw [o1 u htu.symm]; rfl) (fun o ho => by rw [l1]; exact hf.inside u o (by rw [e2]; simp [ho]))
    have hl : s2.arr.length = x.length := by rw [l2, l1]; rfl
    have ht2 : s2.th t = s1.th t := o2 t htu
    -- bit `y` is as the thread `t` alone has left it
    have hby : bitOf s2.arr y = final (bitOf x) pre y := by
      rw [b2, final_keep (fun c' hm => hf.apart t u htu y ⟨c, by rw [e]; simp⟩ _ (by rw [e2]; exact List.mem_append_left _ hm) rfl), b1]
      rfl
    have hz8 : z / 8 < s2.arr.length := by omega
    -- `u` loads
    have q1 := step_load c2' p2 hz8
    let s3 : St := ⟨s2.arr, upd s2.th u ⟨.set z c2 :: post2, .loaded s2.arr[z / 8], (s2.th u).out⟩⟩
    -- `t` loads and stores
    have q2 := step_load (s := s3) (t := t) (y := y) (c := c) (os := post) (by simp only [s3, upd_ne _ _ htu]; rw [ht2]; exact c1)
      (by simp only [s3, upd_ne _ _ htu]; rw [ht2]; exact p1) (show y / 8 < s2.arr.length by omega)
    let s4 : St := ⟨s3.arr, upd s3.th t ⟨.set y c :: post, .loaded (s3.arr[y / 8]'(show y / 8 < s2.arr.length by omega)), (s3.th t).out⟩⟩
    have q3 := step_store (s := s4) (t := t) (y := y) (c := c) (os := post) (v := s3.arr[y / 8]'(show y / 8 < s2.arr.length by omega)) (by simp only [s4, upd_self])
      (by simp only [s4, upd_self]) (show y / 8 < s2.arr.length by omega)
    let s5 : St := ⟨s4.arr.set (y / 8) (changed (s3.arr[y / 8]'(show y / 8 < s2.arr.length by omega)) y c), upd s4.th t ⟨post, .idle, (s4.th t).out⟩⟩
    -- `u` stores
    have h5 : s5.arr.length = s2.arr.length := List.length_set
    have q4 := step_store (s := s5) (t := u) (y := z) (c := c2) (os := post2) (v := s2.arr[z / 8]) (by simp only [s5, s4, s3, upd_ne _ _ htu.symm, upd_self])
      (by simp only [s5, s4, s3, upd_ne _ _ htu.symm, upd_self]) (by rw [h5]; exact hz8)
    obtain ⟨s, rs, hR⟩ := h (sc1 ++ (sc2 ++ [u, t, t, u]))
    have hrun : run (start x prog) (sc1 ++ (sc2 ++ [u, t, t, u])) = .ok ⟨s5.arr.set (z / 8) (changed s2.arr[z / 8] z c2), upd s5.th u ⟨post2, .idle, (s5.th u).out⟩⟩ := by
      rw [run_append, r1, ok_bindE, run_append, r2, ok_bindE]
      simp only [run, q1, ok_bindE]
      rw [show (⟨s2.arr, upd s2.th u ⟨.set z c2 :: post2, .loaded s2.arr[z / 8], (s2.th u).out⟩⟩ : St) = s3 from rfl, q2, ok_bindE,
        show (⟨s3.arr, upd s3.th t ⟨.set y c :: post, .loaded (s3.arr[y / 8]'(show y / 8 < s2.arr.length by omega)), (s3.th t).out⟩⟩ : St) = s4 from rfl, q3, ok_bindE, q4]
      rfl
    rw [hrun] at rs
    cases rs
    obtain ⟨done, d1, _, d3⟩ := hR t
    simp only [upd_ne _ _ htu, s5, upd_self] at d1
    have hd : done = pre ++ [.set y c] := by
      have : done ++ post = (pre ++ [.set y c]) ++ post := by rw [← d1, e]; simp
      exact List.append_cancel_right this
    have := d3 y fun v hv hb => hf.apart v t hv y hb (.set y c) (by rw [e]; simp) rfl
    rw [hd, final_append] at this
    simp only [final, if_true] at this
    rw [bit_store (by rw [h5, hl]; exact hz'), if_neg (fun h => hzy h.symm), if_pos hz.symm] at this
    rw [← bit_of_byte (x := s2.arr) (z := y) (by rw [← hz]; exact List.getElem?_eq_getElem hz8), hby] at this
    exact hne this
  · intro hs sched
    obtain ⟨s, done, e, i⟩ := inv_run hf hs (sched := sched) (s := start x prog) (done := fun _ => [])
      ⟨rfl, fun _ => rfl, fun _ => rfl, fun _ _ _ => rfl, fun _ _ h => by cases h⟩
    exact ⟨s, e, fun t => ⟨done t, i.split t, i.out t, i.bits t⟩⟩

/-- A thread that is not interrupted does with its two steps what `BA_SET` does. -/
theorem bitarray_uninterrupted {x : List Byte} {prog : Nat → List Op} {t y : Nat} {c : Bool} (hp : prog t = [.set y c]) :
    (run (start x prog) [t, t] >>= fun s => pure s.arr) = Bitarray.BA_SET x y c := by
  by_cases h : y / 8 < x.length
  · have e1 := step_load (s := start x prog) (t := t) (y := y) (c := c) (os := []) hp rfl h
    have e2 := step_store (s := ⟨x, upd (start x prog).th t ⟨[.set y c], .loaded x[y / 8], []⟩⟩) (t := t) (y := y) (c := c) (os := []) (v := x[y / 8])
      (by simp only [upd_self]) (by simp only [upd_self]) h
    have e3 : run (start x prog) [t, t] = .ok ⟨x.set (y / 8) (changed x[y / 8] y c),
        upd (upd (start x prog).th t ⟨[.set y c], .loaded x[y / 8], []⟩) t ⟨[], .idle, []⟩⟩ := by
      simp only [run]
      rw [e1, ok_bindE]
      refine (congrArg (· >>= fun s => pure s) e2).trans ?_
      simp only [upd_self, ok_bindE, pure_eq_ok]
    rw [e3, ok_bindE]
    cases c
    · rw [show Bitarray.BA_SET x y false = (rd x (y / 8) >>= fun v => wr x (y / 8) (v &&& ~~~(1#8 <<< (y % 8)))) from rfl, rd_ok h, ok_bindE, wr_ok h]; rfl
    · rw [show Bitarray.BA_SET x y true = (rd x (y / 8) >>= fun v => wr x (y / 8) (v ||| (1#8 <<< (y % 8)))) from rfl, rd_ok h, ok_bindE, wr_ok h]; rfl
  · have hr : rd x (y / 8) = .error .oobRead := by unfold rd; rw [List.getElem?_eq_none (by omega)]
    have e1 : step (start x prog) t = .error .oobRead := by
      unfold step start; simp only [hp, hr, error_bind]
    rw [show run (start x prog) [t, t] = .error .oobRead from by simp only [run, e1, error_bind]]
    cases c
    · rw [show Bitarray.BA_SET x y false = (rd x (y / 8) >>= fun v => wr x (y / 8) (v &&& ~~~(1#8 <<< (y % 8)))) from rfl, hr]; rfl
    · rw [show Bitarray.BA_SET x y true = (rd x (y / 8) >>= fun v => wr x (y / 8) (v ||| (1#8 <<< (y % 8)))) from rfl, hr]; rfl

/-- In particular, threads that use different bytes need no lock. -/
theorem bitarray_threads_bytes {x : List Byte} {prog : Nat → List Op} (hin : ∀ t, ∀ o ∈ prog t, index o < 8 * x.length)
    (hb : ∀ t u, t ≠ u → ∀ a ∈ prog t, ∀ b ∈ prog u, index a / 8 ≠ index b / 8) (sched : List Nat) :
    ∃ s, run (start x prog) sched = .ok s ∧ Right x prog s := by
  refine (bitarray_threads_iff ⟨hin, ?_⟩).2 ?_ sched
  · rintro t u htu y ⟨c, hc⟩ o ho rfl
    exact hb t u htu _ hc o ho rfl
  · rintro t u htu b ⟨pre, y, c, post, e, rfl, _⟩ ⟨z, hz, c2, hm⟩
    exact hb t u htu (.set y c) (by rw [e]; simp) _ hm hz.symm

/-- And two threads that switch on different bits of one byte of zeroes can lose one of them. -/
theorem bitarray_lost_bit {x : List Byte} {t u y z : Nat} (htu : t ≠ u) (hyz : y ≠ z) (hb : y / 8 = z / 8) (hy : y < 8 * x.length)
    (h0 : bitOf x y = false) (prog : Nat → List Op) (ht : prog t = [.set y true]) (hu : prog u = [.set z true]) (ho : ∀ a, a ≠ t → a ≠ u → prog a = []) :
    ¬∀ sched, ∃ s, run (start x prog) sched = .ok s ∧ Right x prog s := by
  have hcase : ∀ a, ∀ o ∈ prog a, (a = t ∧ o = .set y true) ∨ (a = u ∧ o = .set z true) := by
    intro a o hm
    by_cases e1 : a = t
    · subst e1; rw [ht] at hm; exact Or.inl ⟨rfl, List.mem_singleton.1 hm⟩
    · by_cases e2 : a = u
      · subst e2; rw [hu] at hm; exact Or.inr ⟨rfl, List.mem_singleton.1 hm⟩
      · rw [ho a e1 e2] at hm; cases hm
  have hf : Fair x prog := by
    refine ⟨fun a o hm => ?_, ?_⟩
    · rcases hcase a o hm with ⟨_, rfl⟩ | ⟨_, rfl⟩
      · exact hy
      · show z < _; omega
    · rintro a b hab w ⟨c, hc⟩ o hm he
      rcases hcase a _ hc with ⟨rfl, e1⟩ | ⟨rfl, e1⟩ <;> rcases hcase b o hm with ⟨rfl, rfl⟩ | ⟨rfl, rfl⟩ <;> cases e1 <;>
        first | exact hab rfl | exact hyz he | exact hyz he.symm
  intro h
  exact (bitarray_threads_iff hf).1 h t u htu (y / 8) ⟨[], y, true, [], ht, rfl, by show bitOf x y ≠ true; rw [h0]; decide⟩ ⟨z, hb.symm, true, by rw [hu]; simp⟩

/-- Thread 0 switches on bit 1 and reads it, thread 1 switches bit 9 on and off. -/
def baProg : Nat → List Op
  | 0 => [.set 1 true, .get 1]
  | 1 => [.set 9 true, .set 9 false, .get 9]
  | _ => []

example (sched : List Nat) : ∃ s, run (start [0, 0] baProg) sched = .ok s ∧ Right [0, 0] baProg s := by
  refine bitarray_threads_bytes ?_ ?_ sched
  · intro t o ho
    match t with
    | 0 => simp [baProg] at ho; rcases ho with rfl | rfl <;> decide
    | 1 => simp [baProg] at ho; rcases ho with rfl | rfl | rfl <;> decide
    | n + 2 => simp [baProg] at ho
  · intro t u htu a ha b hb
    match t, u with
    | 0, 0 => exact absurd rfl htu
    | 0, 1 => simp [baProg] at ha hb; rcases ha with rfl | rfl <;> rcases hb with rfl | rfl | rfl <;> decide
    | 1, 0 => simp [baProg] at ha hb; rcases ha with rfl | rfl | rfl <;> rcases hb with rfl | rfl <;> decide
    | 1, 1 => exact absurd rfl htu
    | n + 2, _ => simp [baProg] at ha
    | 0, n + 2 => simp [baProg] at hb
    | 1, n + 2 => simp [baProg] at hb

example : ¬∀ sched, ∃ s, run (start [0] fun t => if t = 0 then [.set 1 true] else if t = 1 then [.set 2 true] else []) sched = .ok s ∧
    Right [0] (fun t => if t = 0 then [.set 1 true] else if t = 1 then [.set 2 true] else []) s :=
  bitarray_lost_bit (t := 0) (u := 1) (y := 1) (z := 2) (by decide) (by decide) (by decide) (by decide) (by decide) _ rfl rfl
    (fun a h0 h1 => by rw [if_neg h0, if_neg h1])

end Ulz.Props
