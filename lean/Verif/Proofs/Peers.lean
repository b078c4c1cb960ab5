import Verif.Spec.Peers
import Verif.Proofs.Blockchain
/-! # Proofs about the order in which peers are asked -/

namespace Verif.Chain
open Verif.Spec

variable {Tx Hs : Type} [DecidableEq Hs] (C : Crypto Tx Hs)

/-- The loop ends with the best offer, or with what it had if nothing better is offered. -/
theorem resolveLoop_best (rs : List (Resp Tx Hs)) : ∀ (m : Int) (new r : Option (List (Block Tx Hs))), resolveLoop C rs m new = .ok r →
    (r = new ∧ ∀ l c, Offered C rs l c → l ≤ m) ∨ ∃ c, r = some c ∧ Best C m rs c := by
  induction rs with
  | nil => intro m new r h; simp [resolveLoop] at h; exact .inl ⟨h.symm, fun l c hc => by simp [Offered] at hc⟩
  | cons x rs ih =>
    have up : ∀ {l c}, Offered C rs l c → Offered C (x :: rs) l c := fun h => ⟨List.mem_cons_of_mem _ h.1, h.2⟩
    -- the first answer is not used
    have skip : ∀ (m : Int) (new r : Option (List (Block Tx Hs))), resolveLoop C rs m new = .ok r → (∀ l c, x = .answer 200 l c → c ≠ [] → Linked C c → l ≤ m) →
        (r = new ∧ ∀ l c, Offered C (x :: rs) l c → l ≤ m) ∨ ∃ c, r = some c ∧ Best C m (x :: rs) c := by
      intro m new r h hx
      rcases ih m new r h with ⟨h1, h2⟩ | ⟨c, h1, l, h2, h3, h4⟩
      · refine .inl ⟨h1, fun l c hc => ?_⟩
        rcases List.mem_cons.1 hc.1 with e | e
        · exact hx l c e.symm hc.2.1 hc.2.2
        · exact h2 l c ⟨e, hc.2⟩
      · refine .inr ⟨c, h1, l, up h2, h3, fun l' c' hc => ?_⟩
        rcases List.mem_cons.1 hc.1 with e | e
        · have := hx l' c' e.symm hc.2.1 hc.2.2; omega
        · exact h4 l' c' ⟨e, hc.2⟩
    intro m new r h
    cases x with
    | raises e => simp [resolveLoop] at h
    | answer status l c =>
      unfold resolveLoop at h
      split at h
      · rename_i hs
        subst hs
        split at h
        · rename_i hlt
          simp only [Air.bind_iff] at h
          obtain ⟨v, hv, h⟩ := h
          cases v with
          | false =>
            refine skip m new r (by simpa using h) fun l' c' e h1 h2 => ?_
            simp only [Resp.answer.injEq, true_and] at e
            obtain ⟨-, rfl⟩ := e
            rw [(validChain_iff C c).2 ⟨h1, h2⟩] at hv
            cases hv
          | true =>
            have hc := (validChain_iff C c).1 hv
            rcases ih l (some c) r (by simpa using h) with ⟨h1, h2⟩ | ⟨c', h1, l', h2, h3, h4⟩
            · refine .inr ⟨c, h1, l, ⟨by simp, hc⟩, hlt, fun l' c' h' => ?_⟩
              rcases List.mem_cons.1 h'.1 with e | e
              · simp only [Resp.answer.injEq, true_and] at e; omega
              · exact h2 l' c' ⟨e, h'.2⟩
            · refine .inr ⟨c', h1, l', up h2, by omega, fun l'' c'' h' => ?_⟩
              rcases List.mem_cons.1 h'.1 with e | e
              · simp only [Resp.answer.injEq, true_and] at e; omega
              · exact h4 l'' c'' ⟨e, h'.2⟩
        · rename_i hlt
          refine skip m new r h fun l' c' e _ _ => ?_
          simp only [Resp.answer.injEq, true_and] at e
          omega
      · rename_i hs
        refine skip m new r h fun l' c' e _ _ => ?_
        simp only [Resp.answer.injEq] at e
        exact absurd e.1 hs

/-- A peer that cannot be reached, wherever it comes. -/
theorem resolveLoop_raises (rs : List (Resp Tx Hs)) (e : PyErr) (he : Resp.raises e ∈ rs) : ∀ (m : Int) (new : Option (List (Block Tx Hs))),
    ∃ e', resolveLoop C rs m new = .error e' := by
  induction rs with
  | nil => simp at he
  | cons x rs ih =>
    intro m new
    cases x with
    | raises e' => exact ⟨e', rfl⟩
    | answer status l c =>
      have ih := ih (by simpa using he)
      unfold resolveLoop
      split
      · split
        · cases hv : validChain C c with
          | error e' => exact ⟨e', rfl⟩
          | ok v =>
            show ∃ e', (if v = true then resolveLoop C rs l (some c) else resolveLoop C rs m new) = _
            split
            · exact ih _ _
            · exact ih _ _
        · exact ih _ _
      · exact ih _ _

end Verif.Chain
