import Verif.Proofs.Overlap
import Verif.Props.Ledger
import Mathlib.Tactic.WLOG
/-!
# C159: mining and consensus at the same time

`qrun` runs a schedule of `/mine`, `/transactions/new` and `/nodes/resolve` requests on a node; `NoOverlap` and `Truthful` are in `Spec/Overlap`.
-/

namespace Verif.Props
open Verif.Chain Verif.Spec

variable {Tx Hs : Type} [DecidableEq Hs]

omit [DecidableEq Hs] in
/-- A new node satisfies the invariant. -/
theorem qnew_inv (C : Crypto Tx Hs) (T : Prop) (time : Nat) : QInv C T (qnew C time) :=
  ⟨by simp [qnew], fun i a b _ hb => by simp [qnew] at hb, fun _ => trivial⟩

/-- **C159** if requests do not overlap. If at no point of the schedule two requests have read the chain and have yet to change it, then the chain is valid at its end; and if
moreover the peers say how long their chains are, the chain has not become shorter between any two points of the schedule. -/
theorem C159_exclusive_partial (C : Crypto Tx Hs) (fuel time : Nat) (sched : List (QChoice Tx Hs))
    (he : ∀ k, NoOverlap (qrun C fuel (qnew C time) (sched.take k))) :
    init C time = .ok (qnew C time).shared ∧ validChain C (qrun C fuel (qnew C time) sched).shared.chain = .ok true ∧
      (Truthful sched → ∀ j k, j ≤ k → (qrun C fuel (qnew C time) (sched.take j)).shared.chain.length ≤
        (qrun C fuel (qnew C time) (sched.take k)).shared.chain.length) := by
  obtain ⟨h, -⟩ := qrun_inv C False fuel sched (qnew C time) (qnew_inv C False time) he (fun h => h.elim)
  refine ⟨rfl, (validChain_iff C _).2 ⟨h.nonempty, h.linked⟩, fun hT j k hjk => ?_⟩
  have hsplit : sched.take k = sched.take j ++ (sched.drop j).take (k - j) := by
    rw [← List.take_add]
    congr 1
    omega
  have hT' : ∀ l : List (QChoice Tx Hs), (∀ x ∈ l, x ∈ sched) → Truthful l := fun l hl i n c hm => hT i n c (hl _ hm)
  obtain ⟨h1, -⟩ := qrun_inv C True fuel (sched.take j) (qnew C time) (qnew_inv C True time)
    (fun n => by rw [List.take_take]; exact he _) (fun _ => hT' _ fun x hx => List.mem_of_mem_take hx)
  have hrun : ∀ l, qrun C fuel (qnew C time) (sched.take j ++ l) = qrun C fuel (qrun C fuel (qnew C time) (sched.take j)) l := fun l => by
    simp [qrun]
  obtain ⟨-, h2⟩ := qrun_inv C True fuel ((sched.drop j).take (k - j)) _ h1
    (fun n => by
      rw [List.take_take, ← hrun, ← List.take_add]
      exact he _)
    (fun _ => hT' _ fun x hx => List.mem_of_mem_drop (List.mem_of_mem_take hx))
  rw [hsplit, hrun]
  exact h2 trivial

/-- A schedule that meets the hypotheses of `C159_exclusive_partial`: a block is mined, a longer chain is taken over, another block is mined. -/
example : let sched : List (QChoice Nat Nat) := [.submit 7, .mine 0 1 0, .mine 0 1 0, .mine 0 1 0, .start 1,
      .poll 1 (.answer 200 3 [⟨1, 0, [], 100, 1⟩, ⟨2, 0, [8], 0, 206⟩, ⟨3, 0, [], 0, 1035⟩]), .finish 1, .mine 2 1 0, .mine 2 1 0, .mine 2 1 0]
    (∀ k, NoOverlap (qrun (toyPay Nat) 3 (qnew (toyPay Nat) 0) (sched.take k))) ∧ Truthful sched ∧
      (qrun (toyPay Nat) 3 (qnew (toyPay Nat) 0) sched).shared.chain.map (·.transactions) = [[], [8], [], [1]] := by
  intro sched
  refine ⟨fun k => ?_, fun i l c h => ?_, by decide +kernel⟩
  · wlog hk : k ≤ 10 generalizing k
    · have := this 10 (le_refl _)
      rw [List.take_of_length_le (by simp [sched]; omega)]
      simpa [sched] using this
    have idle : ∀ i, 3 ≤ i → (qrun (toyPay Nat) 3 (qnew (toyPay Nat) 0) (sched.take k)).threads i = .new := fun i hi => by
      rw [qrun_idle]
      · rfl
      · intro ch hch
        have hch := List.mem_of_mem_take hch
        simp only [sched, List.mem_cons, List.not_mem_nil, or_false] at hch
        rcases hch with rfl | rfl | rfl | rfl | rfl | rfl | rfl | rfl | rfl | rfl <;> simp [QChoice.thread] <;> omega
    have key : ∀ k ≤ 10, ∀ i < 3, ∀ j < 3, Busy ((qrun (toyPay Nat) 3 (qnew (toyPay Nat) 0) (sched.take k)).threads i) →
        Busy ((qrun (toyPay Nat) 3 (qnew (toyPay Nat) 0) (sched.take k)).threads j) → i = j := by decide +kernel
    intro i j hi hj
    by_cases h1 : i < 3
    · by_cases h2 : j < 3
      · exact key k hk i h1 j h2 hi hj
      · rw [idle j (by omega)] at hj; exact hj.elim
    · rw [idle i (by omega)] at hi; exact hi.elim
  · simp only [sched, List.mem_cons, QChoice.poll.injEq, Resp.answer.injEq, reduceCtorEq, List.not_mem_nil, or_false, false_or, true_and] at h
    obtain ⟨-, rfl, rfl⟩ := h
    rfl

/-- **C159**, every schedule: when a `/nodes/resolve` request ends, the chain is as it was before or it is valid, whatever the requests in progress have done to it. -/
theorem C159_adopted_partial (C : Crypto Tx Hs) (fuel time : Nat) (sched : List (QChoice Tx Hs)) (i : Nat) :
    (qrun C fuel (qnew C time) (sched ++ [.finish i])).shared.chain = (qrun C fuel (qnew C time) sched).shared.chain ∨
      validChain C (qrun C fuel (qnew C time) (sched ++ [.finish i])).shared.chain = .ok true := by
  have hok := pollOk_run C fuel sched (qnew C time) (fun i m new h => by simp [qnew] at h)
  have e : qrun C fuel (qnew C time) (sched ++ [.finish i]) = qstep C fuel (qrun C fuel (qnew C time) sched) (.finish i) := by simp [qrun]
  rw [e]
  simp only [qstep]
  split
  · rename_i m b rest hpc
    exact .inr (hok i m _ hpc)
  · exact .inl rfl
  · exact .inl rfl

/-- Three steps of a `/mine` request that has not begun. -/
theorem qmine (C : Crypto Tx Hs) (fuel : Nat) (hm : ∀ lp lh, ∃ k < fuel, C.vp lp k lh = true) (c : QConf Tx Hs) (hc : c.shared.chain ≠ []) (i : Nat)
    (hi : c.threads i = .new) (r : Tx) (time : Nat) :
    ∃ b, qrun C fuel c [.mine i r time, .mine i r time, .mine i r time] = c.set i ⟨[], c.shared.chain ++ [b], c.shared.nodes⟩ (.mine .done) := by
  obtain ⟨k, hk, hv⟩ := hm (c.shared.chain.getLast hc).proof (C.hash (c.shared.chain.getLast hc))
  obtain ⟨p, hp⟩ := powLoop_returns C (c.shared.chain.getLast hc).proof (C.hash (c.shared.chain.getLast hc)) k 0 (by simpa using hv) fuel hk
  refine ⟨⟨c.shared.chain.length + 1, time, c.shared.current ++ [r], p, C.hash (c.shared.chain.getLast hc)⟩, ?_⟩
  have hl := List.getLast?_eq_getLast_of_ne_nil hc
  simp only [qrun, List.foldl_cons, List.foldl_nil, qstep, hi, mineStep, hl, proofOfWork, hp, QConf.set, if_true, newTransaction, newBlock, bind, Except.bind]
  congr 1
  funext j
  by_cases hj : j = i <;> simp [hj]

/-- **C159** fails, shorter chains: a `/nodes/resolve` request compares with the length the chain had when it began. For every hash function and every `n`, a peer that
tells the truth answers with a valid chain of two blocks, `n` blocks are mined, one after the other, and then the request puts the chain of two blocks in place of
that of `n + 1` blocks. -/
theorem C159_shorter_refuted (C : Crypto Tx Hs) (fuel : Nat) (hm : ∀ lp lh, ∃ k < fuel, C.vp lp k lh = true) (time : Nat) (r : Tx) (n : Nat) :
    ∃ sched : List (QChoice Tx Hs), Truthful (sched ++ [.finish 0]) ∧ (qrun C fuel (qnew C time) sched).shared.chain.length = n + 1 ∧
      (qrun C fuel (qnew C time) (sched ++ [.finish 0])).shared.chain.length = 2 := by
  obtain ⟨b, e, -, el⟩ := serve_mine C fuel hm ⟨[], [⟨1, time, [], 100, C.one⟩], []⟩ (by simp) r 0
  have hlink : Linked C [(⟨1, time, [], 100, C.one⟩ : Block Tx Hs), b] := el fun i a b _ hb => by simp at hb
  have hv : validChain C [(⟨1, time, [], 100, C.one⟩ : Block Tx Hs), b] = .ok true := (validChain_iff C _).2 ⟨by simp, hlink⟩
  obtain ⟨sched, h1, h2, h3, h4⟩ : ∃ sched : List (QChoice Tx Hs), Truthful sched ∧ (qrun C fuel (qnew C time) sched).shared.chain.length = n + 1 ∧
      (qrun C fuel (qnew C time) sched).threads 0 = .polling 2 (some [⟨1, time, [], 100, C.one⟩, b]) ∧
      ∀ j, n < j → (qrun C fuel (qnew C time) sched).threads j = .new := by
    induction n with
    | zero =>
      refine ⟨[.start 0, .poll 0 (.answer 200 2 [⟨1, time, [], 100, C.one⟩, b])], fun i l c h => ?_, ?_, ?_, fun j hj => ?_⟩
      · simp only [List.mem_cons, QChoice.poll.injEq, Resp.answer.injEq, reduceCtorEq, List.not_mem_nil, or_false, false_or, true_and] at h
        obtain ⟨-, rfl, rfl⟩ := h
        rfl
      · simp [qrun, qstep, qnew, QConf.set, hv]
      · simp [qrun, qstep, qnew, QConf.set, hv]
      · simp [qrun, qstep, qnew, QConf.set, hv, show j ≠ 0 by omega]
    | succ n ih =>
      obtain ⟨sched, h1, h2, h3, h4⟩ := ih
      obtain ⟨d, hd⟩ := qmine C fuel hm (qrun C fuel (qnew C time) sched) (fun h => by rw [h] at h2; simp at h2) (n + 1) (h4 _ (by omega)) r time
      have hrun : qrun C fuel (qnew C time) (sched ++ [.mine (n + 1) r time, .mine (n + 1) r time, .mine (n + 1) r time]) = _ :=
        (by simp only [qrun, List.foldl_append] : _ = qrun C fuel (qrun C fuel (qnew C time) sched) _).trans hd
      refine ⟨sched ++ [.mine (n + 1) r time, .mine (n + 1) r time, .mine (n + 1) r time], fun i l c h => h1 i l c ?_, ?_, ?_, fun j hj => ?_⟩
      · simpa using h
      · rw [hrun]
        simp [QConf.set, h2]
      · rw [hrun]
        simp [QConf.set, h3]
      · rw [hrun]
        simp only [QConf.set, if_neg (show j ≠ n + 1 by omega)]
        exact h4 j (by omega)
  refine ⟨sched, fun i l c h => h1 i l c (by simpa using h), h2, ?_⟩
  have e : qrun C fuel (qnew C time) (sched ++ [.finish 0]) = qstep C fuel (qrun C fuel (qnew C time) sched) (.finish 0) := by simp [qrun]
  rw [e]
  simp [qstep, h3, QConf.set]

/-- **C159** fails, invalid chains: a single `/mine` request during which the chain is replaced appends a block that belongs to the old chain. For every hash function, every peer that
tells the truth and has a valid chain of at least two blocks, unless the last block of it has the same hash as the first block of the node. -/
theorem C159_invalid_refuted (C : Crypto Tx Hs) (fuel : Nat) (hm : ∀ lp lh, ∃ k < fuel, C.vp lp k lh = true) (time : Nat) (r : Tx) (c : List (Block Tx Hs))
    (hv : validChain C c = .ok true) (hc : 2 ≤ c.length) (last : Block Tx Hs) (hl : c.getLast? = some last)
    (hh : C.hash last ≠ C.hash ⟨1, time, [], 100, C.one⟩) :
    let sched : List (QChoice Tx Hs) := [.mine 0 r time, .start 1, .poll 1 (.answer 200 c.length c), .finish 1, .mine 0 r time, .mine 0 r time]
    Truthful sched ∧ validChain C (qrun C fuel (qnew C time) sched).shared.chain = .ok false := by
  intro sched
  constructor
  · intro i l c' h
    simp only [sched, List.mem_cons, QChoice.poll.injEq, Resp.answer.injEq, reduceCtorEq, List.not_mem_nil, or_false, false_or, true_and] at h
    obtain ⟨-, rfl, rfl⟩ := h
    rfl
  · obtain ⟨k, hk, hv'⟩ := hm 100 (C.hash ⟨1, time, [], 100, C.one⟩)
    obtain ⟨p, hp⟩ := powLoop_returns C 100 (C.hash ⟨1, time, [], 100, C.one⟩) k 0 (by simpa using hv') fuel hk
    obtain ⟨x, y, l, rfl⟩ : ∃ x y l, c = x :: y :: l := by
      match c, hc with
      | x :: y :: l, _ => exact ⟨x, y, l, rfl⟩
    have hlen : ((1 : Nat) : Int) < ((x :: y :: l).length : Int) := by simp only [List.length_cons]; omega
    have final : (qrun C fuel (qnew C time) sched).shared.chain =
        (x :: y :: l) ++ [⟨(x :: y :: l).length + 1, time, [r], p, C.hash ⟨1, time, [], 100, C.one⟩⟩] := by
      simp only [sched, qrun, List.foldl_cons, List.foldl_nil, qstep, qnew, mineStep, List.getLast?_singleton, proofOfWork, hp, QConf.set, if_true,
        newTransaction, newBlock, bind, Except.bind, List.length_singleton, true_and, if_pos hlen, hv, hl, List.nil_append, zero_ne_one, one_ne_zero, if_false]
    obtain ⟨v, hv''⟩ := validChain_returns C (qrun C fuel (qnew C time) sched).shared.chain (by rw [final]; simp)
    cases v with
    | false => exact hv''
    | true =>
      exfalso
      have hlk := ((validChain_iff C _).1 hv'').2
      rw [final] at hlk
      have h1 := hlk ((x :: y :: l).length - 1) last ⟨(x :: y :: l).length + 1, time, [r], p, C.hash ⟨1, time, [], 100, C.one⟩⟩
        (by
          rw [List.getElem?_append_left (by simp), ← List.getLast?_eq_getElem?]
          exact hl)
        (by
          rw [show (x :: y :: l).length - 1 + 1 = (x :: y :: l).length by simp, List.getElem?_append_right (le_refl _)]
          simp)
      exact hh h1.1.symm

/-- This meets the hypotheses of `C159_shorter_refuted` and `C159_invalid_refuted`. -/
example : (∀ lp lh, ∃ k < 3, (toyPay Nat).vp lp k lh = true) ∧ validChain (toyPay Nat) [⟨1, 0, [], 100, 1⟩, ⟨2, 0, [7], 0, 206⟩] = .ok true ∧
    [(⟨1, 0, [], 100, 1⟩ : Block Nat Nat), ⟨2, 0, [7], 0, 206⟩].getLast? = some ⟨2, 0, [7], 0, 206⟩ ∧
    (toyPay Nat).hash ⟨2, 0, [7], 0, 206⟩ ≠ (toyPay Nat).hash ⟨1, 0, [], 100, 1⟩ :=
  ⟨toyPay_mines Nat, by decide, rfl, by decide⟩

end Verif.Props
