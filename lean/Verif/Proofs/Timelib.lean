import Verif.Spec.Timelib
import Verif.Proofs.Base
/-! Lemmas about time arithmetic and sleeping. -/
namespace Ulz.Timelib
open Numbers Spec

theorem i64_ok {x : Int} (h : In64 x) : i64 x = .ok x := by unfold i64; exact if_pos h
theorem i64_bad {x : Int} (h : ¬ In64 x) : i64 x = .error .overflow := by unfold i64; exact if_neg h

theorem sleep_spec : ∀ (as : List Ans) (req : Time), Duration req → (∀ a ∈ as, AnsOk a) →
    match as.dropWhile (fun a => match a with | .eintr _ => true | _ => false) with
    | [] => sleepLoop req as = .error .hang
    | .done :: _ => ∃ tr, sleepLoop req as = .ok (0, tr) ∧ total tr = ns req ∧ tr.map Prod.snd = as.takeWhile (fun a => match a with | .eintr _ => true | _ => false) ++ [.done]
    | _ :: _ => ∃ tr, sleepLoop req as = .ok (-1, tr) ∧ tr.map Prod.snd = as.takeWhile (fun a => match a with | .eintr _ => true | _ => false) ++ [.err]
  | [], req, _, _ => rfl
  | a :: as, req, hr, h => by
    have hn : nanosleep req a = a := by
      unfold nanosleep
      rw [if_neg]
      obtain ⟨h1, h2, h3⟩ := hr
      omega
    unfold sleepLoop
    rw [hn]
    cases a with
    | done => exact ⟨_, rfl, by simp [total, slept], rfl⟩
    | err => exact ⟨_, rfl, rfl⟩
    | eintr rem =>
      have ih := sleep_spec as rem (h _ (List.mem_cons_self ..)) (fun a ha => h a (List.mem_cons_of_mem _ ha))
      simp only [List.dropWhile_cons, if_true, List.takeWhile_cons]
      revert ih
      cases hd : as.dropWhile (fun a => match a with | .eintr _ => true | _ => false) with
      | nil =>
        intro ih
        simp only at ih ⊢
        rw [ih]; rfl
      | cons b bs =>
        cases b with
        | done =>
          rintro ⟨tr, h1, h2, h3⟩
          simp only at h1 ⊢
          rw [h1]
          refine ⟨_, rfl, ?_, ?_⟩
          · simp only [total, List.map_cons, List.foldr_cons, slept] at h2 ⊢
            omega
          · simp only [List.map_cons, List.cons_append]
            rw [h3]
        | err =>
          rintro ⟨tr, h1, h3⟩
          simp only at h1 ⊢
          rw [h1]
          exact ⟨_, rfl, by simp only [List.map_cons, List.cons_append]; rw [h3]⟩
        | eintr r =>
          have := List.head?_dropWhile_not (fun a : Ans => match a with | .eintr _ => true | _ => false) as
          rw [hd] at this
          simp at this

end Ulz.Timelib
