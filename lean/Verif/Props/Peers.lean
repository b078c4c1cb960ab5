import Verif.Proofs.Peers
import Verif.Props.Ledger
/-! # C160: the order in which peers are asked -/

namespace Verif.Props
open Verif.Chain Verif.Spec

variable {Tx Hs : Type} [DecidableEq Hs]

/-- **C160**, what consensus ends with, for arbitrary answers: a best offer, and `False` and no change if no longer chain is offered. -/
theorem C160_best (C : Crypto Tx Hs) (s s' : State Tx Hs) (rs : List (Resp Tx Hs)) (b : Bool) (h : resolve C s rs = .ok (b, s')) :
    (b = true ∧ Best C s.chain.length rs s'.chain ∧ s' = { s with chain := s'.chain }) ∨
    (b = false ∧ s' = s ∧ ∀ l c, Offered C rs l c → l ≤ s.chain.length) := by
  unfold resolve at h
  simp only [Air.bind_iff] at h
  obtain ⟨new, hn, h⟩ := h
  rcases resolveLoop_best C rs _ _ _ hn with ⟨rfl, h2⟩ | ⟨c, rfl, h2⟩
  · simp only [Except.ok.injEq, Prod.mk.injEq] at h
    exact .inr ⟨h.1.symm, h.2.symm, h2⟩
  · cases c with
    | nil => obtain ⟨l, h3, -⟩ := h2; exact absurd rfl h3.2.1
    | cons a c =>
      simp only [Except.ok.injEq, Prod.mk.injEq] at h
      obtain ⟨rfl, rfl⟩ := h
      exact .inl ⟨rfl, h2, rfl⟩

/-- This meets the hypothesis of `C160_best`. -/
example : (resolve toy toy0 [.answer 200 2 [⟨1, 0, [], 100, 1⟩, ⟨2, 0, [7], 0, 206⟩]]).toOption.map (fun r => (r.1, r.2.chain.length)) = some (true, 2) := by decide

/-- **C160**, when the chains agree. Let the same answers come in another order, both calls returning. Then both return the same boolean, and if the best
offers are all the same chain (for instance because no two peers claim the same length), both leave the node with the same chain. -/
theorem C160_order_partial (C : Crypto Tx Hs) (s s1 s2 : State Tx Hs) (rs rs' : List (Resp Tx Hs)) (hp : rs.Perm rs') (b1 b2 : Bool)
    (h1 : resolve C s rs = .ok (b1, s1)) (h2 : resolve C s rs' = .ok (b2, s2)) :
    b1 = b2 ∧ ((∀ c c', Best C s.chain.length rs c → Best C s.chain.length rs c' → c = c') → s1 = s2) := by
  have ho : ∀ l c, Offered C rs' l c ↔ Offered C rs l c := fun l c => by unfold Offered; rw [hp.mem_iff]
  have hb : ∀ n c, Best C n rs' c ↔ Best C n rs c := fun n c => by unfold Best; simp only [ho]
  rcases C160_best C s s1 rs b1 h1 with ⟨rfl, hx, hs⟩ | ⟨rfl, hs, hx⟩
  · rcases C160_best C s s2 rs' b2 h2 with ⟨rfl, hy, ht⟩ | ⟨rfl, ht, hy⟩
    · refine ⟨rfl, fun hu => ?_⟩
      rw [hs, ht, hu _ _ hx ((hb _ _).1 hy)]
    · obtain ⟨l, h3, h4, -⟩ := hx
      have := hy l _ ((ho _ _).2 h3)
      omega
  · rcases C160_best C s s2 rs' b2 h2 with ⟨rfl, hy, ht⟩ | ⟨rfl, ht, hy⟩
    · obtain ⟨l, h3, h4, -⟩ := hy
      have := hx l _ ((ho _ _).1 h3)
      omega
    · exact ⟨rfl, fun _ => by rw [hs, ht]⟩

/-- **C160**, truthful peers: if all peers can be reached and claim the lengths their chains have, consensus returns in every order, with the same boolean and
chains of the same length. -/
theorem C160_length_partial (C : Crypto Tx Hs) (s : State Tx Hs) (rs rs' : List (Resp Tx Hs)) (hp : rs.Perm rs') (hr : ∀ e, Resp.raises e ∉ rs)
    (hh : ∀ l c, Resp.answer 200 l c ∈ rs → l = c.length) :
    ∃ b s1 s2, resolve C s rs = .ok (b, s1) ∧ resolve C s rs' = .ok (b, s2) ∧ s1.chain.length = s2.chain.length ∧ s1.current = s2.current ∧
      s1.nodes = s2.nodes := by
  obtain ⟨b1, s1, e1, c1, n1, -⟩ := C68_longest_partial C s rs hr hh
  obtain ⟨b2, s2, e2, c2, n2, -⟩ := C68_longest_partial C s rs' (fun e h => hr e (hp.mem_iff.2 h)) (fun l c h => hh l c (hp.mem_iff.2 h))
  have ho : ∀ l c, Offered C rs' l c ↔ Offered C rs l c := fun l c => by unfold Offered; rw [hp.mem_iff]
  obtain ⟨rfl, -⟩ := C160_order_partial C s s1 s2 rs rs' hp b1 b2 e1 e2
  refine ⟨b1, s1, s2, e1, e2, ?_, by rw [c1, c2], by rw [n1, n2]⟩
  rcases C160_best C s s1 rs b1 e1 with ⟨rfl, ⟨l, hx, -, hx'⟩, -⟩ | ⟨rfl, hs, -⟩
  · rcases C160_best C s s2 rs' true e2 with ⟨-, ⟨l', hy, -, hy'⟩, -⟩ | ⟨h, -⟩
    · have a1 := hh _ _ hx.1
      have a2 := hh _ _ (hp.mem_iff.2 hy.1)
      have a3 := hx' _ _ ((ho _ _).1 hy)
      have a4 := hy' _ _ ((ho _ _).2 hx)
      omega
    · cases h
  · rcases C160_best C s s2 rs' false e2 with ⟨h, -⟩ | ⟨-, ht, -⟩
    · cases h
    · rw [hs, ht]

/-- This meets the hypotheses of `C160_order_partial` and `C160_length_partial`: chains of two and of three blocks. -/
example : let c2 : List (Block Nat Nat) := [⟨1, 0, [], 100, 1⟩, ⟨2, 0, [7], 0, 206⟩]
    let c3 : List (Block Nat Nat) := [⟨1, 0, [], 100, 1⟩, ⟨2, 0, [8], 0, 206⟩, ⟨3, 0, [], 0, 1056⟩]
    let rs : List (Resp Nat Nat) := [.answer 200 2 c2, .answer 200 3 c3]
    rs.Perm rs.reverse ∧ (∀ e, Resp.raises e ∉ rs) ∧ (∀ l c, Resp.answer 200 l c ∈ rs → l = c.length) ∧
      (resolve toy toy0 rs).toOption.map (fun r => (r.1, r.2.chain)) = some (true, c3) ∧
      (resolve toy toy0 rs.reverse).toOption.map (fun r => (r.1, r.2.chain)) = some (true, c3) := by
  intro c2 c3 rs
  refine ⟨(List.reverse_perm _).symm, by simp [rs], fun l c h => ?_, by decide, by decide⟩
  simp only [rs, List.mem_cons, Resp.answer.injEq, true_and, List.not_mem_nil, or_false] at h
  rcases h with ⟨rfl, rfl⟩ | ⟨rfl, rfl⟩ <;> rfl

/-- **C160** fails, ties: whatever the hash function, if two peers have different valid chains of the same length, longer than that of the node, the node takes over
the chain of the one that is asked first. -/
theorem C160_ties_refuted (C : Crypto Tx Hs) (s : State Tx Hs) (c d : List (Block Tx Hs)) (hc : c ≠ [] ∧ Linked C c) (hd : d ≠ [] ∧ Linked C d)
    (hl : c.length = d.length) (hs : s.chain.length < c.length) :
    resolve C s [.answer 200 c.length c, .answer 200 d.length d] = .ok (true, { s with chain := c }) ∧
    resolve C s [.answer 200 d.length d, .answer 200 c.length c] = .ok (true, { s with chain := d }) := by
  have vc := (validChain_iff C c).2 hc
  have vd := (validChain_iff C d).2 hd
  have h1 : (s.chain.length : Int) < c.length := by omega
  have h2 : (s.chain.length : Int) < d.length := by omega
  obtain ⟨a, c', rfl⟩ := List.exists_cons_of_ne_nil hc.1
  obtain ⟨a', d', rfl⟩ := List.exists_cons_of_ne_nil hd.1
  have h3 : ¬ ((d'.length + 1 : Nat) : Int) < ((d'.length + 1 : Nat) : Int) := by omega
  have hl' : c'.length = d'.length := by simpa using hl
  simp only [List.length_cons, hl'] at h1 h2 ⊢
  constructor
  · simp only [resolve, resolveLoop, if_true, if_pos h1, vc, bind, Except.bind, if_neg h3]
  · simp only [resolve, resolveLoop, if_true, if_pos h1, vd, bind, Except.bind, if_neg h3]

/-- This meets the hypotheses of `C160_ties_refuted`: two nodes have mined one block each. -/
example : let c : List (Block Nat Nat) := [⟨1, 0, [], 100, 1⟩, ⟨2, 0, [7], 0, 206⟩]
    let d : List (Block Nat Nat) := [⟨1, 0, [], 100, 1⟩, ⟨2, 0, [8], 0, 206⟩]
    validChain toy c = .ok true ∧ validChain toy d = .ok true ∧ c.length = d.length ∧ toy0.chain.length < c.length ∧ c ≠ d := by decide

/-- **C160** fails, exceptions: a peer that claims a length and sends no block makes the call raise if it is asked before one that offers a chain with a greater
claimed length, and does no harm if it is asked after it. -/
theorem C160_raises_refuted (C : Crypto Tx Hs) (s : State Tx Hs) (c : List (Block Tx Hs)) (hc : c ≠ [] ∧ Linked C c) (hs : s.chain.length + 1 < c.length) :
    resolve C s [.answer 200 (s.chain.length + 1) [], .answer 200 c.length c] = .error .indexError ∧
    resolve C s [.answer 200 c.length c, .answer 200 (s.chain.length + 1) []] = .ok (true, { s with chain := c }) := by
  refine ⟨C68_empty_refuted C s _, ?_⟩
  have vc := (validChain_iff C c).2 hc
  have h1 : (s.chain.length : Int) < c.length := by omega
  have h2 : ¬ (c.length : Int) < (s.chain.length : Int) + 1 := by omega
  obtain ⟨a, c', rfl⟩ := List.exists_cons_of_ne_nil hc.1
  simp only [resolve, resolveLoop, if_true, if_pos h1, vc, bind, Except.bind, if_neg h2]

/-- This meets the hypotheses of `C160_raises_refuted`. -/
example : let c : List (Block Nat Nat) := [⟨1, 0, [], 100, 1⟩, ⟨2, 0, [8], 0, 206⟩, ⟨3, 0, [], 0, 1056⟩]
    validChain toy c = .ok true ∧ toy0.chain.length + 1 < c.length := by decide

/-- **C160**, unreachable peers: if one of them cannot be reached the call raises in every order, and the node keeps its chain. -/
theorem C160_unreachable (C : Crypto Tx Hs) (s : State Tx Hs) (rs : List (Resp Tx Hs)) (e : PyErr) (he : Resp.raises e ∈ rs) :
    ∃ e', resolve C s rs = .error e' ∧ ∀ fuel, serve C fuel s (.resolve rs) = s := by
  obtain ⟨e', h⟩ := resolveLoop_raises C rs e he s.chain.length none
  have h' : resolve C s rs = .error e' := by simp only [resolve, h, bind, Except.bind]
  exact ⟨e', h', fun fuel => by simp only [serve, h']⟩

/-- This meets the hypothesis of `C160_unreachable`: the second of two peers cannot be reached, although the first has a longer chain. -/
example : let rs : List (Resp Nat Nat) := [.answer 200 2 [⟨1, 0, [], 100, 1⟩, ⟨2, 0, [7], 0, 206⟩], .raises .exception]
    Resp.raises .exception ∈ rs ∧ (resolve toy toy0 rs).toOption = none := by
  exact ⟨by simp, rfl⟩

end Verif.Props
