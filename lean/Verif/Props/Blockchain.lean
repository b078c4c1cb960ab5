import Verif.Proofs.Blockchain
import Verif.Proofs.BlockchainThreads
import Mathlib.Tactic.WLOG
/-!
# Theorems about `misc/blockchain.py`: C66–C69, C83–C85

For every hash function and every proof-of-work predicate.
-/

namespace Verif.Props
open Verif.Chain Verif.Spec

variable {Tx Hs : Type} [DecidableEq Hs]

/-- A toy instance for the examples: transactions and hashes are numbers. -/
def toy : Crypto Nat Nat := ⟨fun b => b.index + 2 * b.proof + 3 * b.transactions.sum + 5 * b.previousHash, fun lp p lh => (lp + p + lh) % 3 == 0, 1⟩

/-- A new toy node. -/
def toy0 : State Nat Nat := ⟨[], [⟨1, 0, [], 100, 1⟩], []⟩

/-- **C66, validity.** After any history of requests — submissions, minings, registrations, consensus with arbitrary peers — the
chain of a new node is not empty, every block links to the one before and proves work for it, and `valid_chain` says so. -/
theorem C66_valid (C : Crypto Tx Hs) (fuel time : Nat) (ops : List (Op Tx Hs)) : ∃ s0, init C time = .ok s0 ∧
    (serveAll C fuel s0 ops).chain ≠ [] ∧ Linked C (serveAll C fuel s0 ops).chain ∧ validChain C (serveAll C fuel s0 ops).chain = .ok true := by
  refine ⟨_, init_eq C time, ?_⟩
  have h0 : validChain C [(⟨1, time, [], 100, C.one⟩ : Block Tx Hs)] = .ok true := rfl
  have h := serveAll_valid C fuel ⟨[], [⟨1, time, [], 100, C.one⟩], []⟩ ops h0
  obtain ⟨h1, h2⟩ := (validChain_iff C _).mp h
  exact ⟨h1, h2, h⟩

/-- `valid_chain` decides exactly this. -/
theorem C66_valid_chain (C : Crypto Tx Hs) (chain : List (Block Tx Hs)) :
    (validChain C chain = .ok true ↔ chain ≠ [] ∧ Linked C chain) ∧ (chain ≠ [] → ∃ v, validChain C chain = .ok v) :=
  ⟨validChain_iff C chain, validChain_returns C chain⟩

/-- This meets the hypotheses of `C85_immutable_partial`. -/
example : (serveAll toy 3 toy0 [.submit 7, .mine 1 5, .submit 8, .mine 1 6]).chain.map (·.transactions) = [[], [7, 1], [8, 1]] := by decide

/-- **C66, indices.** As long as the peers' chains that were answered have the right indices, the node's chain has. -/
theorem C66_indices_partial (C : Crypto Tx Hs) (fuel time : Nat) (ops : List (Op Tx Hs))
    (ho : ∀ rs, .resolve rs ∈ ops → ∀ l c, Resp.answer 200 l c ∈ rs → Counted c) :
    ∃ s0, init C time = .ok s0 ∧ Counted (serveAll C fuel s0 ops).chain := by
  refine ⟨_, init_eq C time, serveAll_counted C fuel ops _ ?_ ho⟩
  intro i b hb
  have hi : i < 1 := (List.getElem?_eq_some_iff.mp hb).1
  have : i = 0 := by omega
  subst this
  simp at hb
  subst hb; rfl

/-- A history with a consensus request that meets the hypothesis of `C66_indices_partial` and changes the chain. -/
example : (∀ rs, Op.resolve rs ∈ ([.submit 7, .resolve [.answer 200 2 [⟨1, 0, [], 100, 1⟩, ⟨2, 0, [], 0, 206⟩]], .mine 1 5] : List (Op Nat Nat)) →
      ∀ l c, Resp.answer 200 l c ∈ rs → Counted c) ∧
    (serveAll toy 3 toy0 [.submit 7, .resolve [.answer 200 2 [⟨1, 0, [], 100, 1⟩, ⟨2, 0, [], 0, 206⟩]], .mine 1 5]).chain.map (·.index) = [1, 2, 3] := by
  refine ⟨?_, by decide⟩
  intro rs h l c hc
  simp only [List.mem_cons, reduceCtorEq, List.not_mem_nil, or_false, false_or, Op.resolve.injEq] at h
  subst h
  simp only [List.mem_singleton, Resp.answer.injEq, true_and] at hc
  obtain ⟨-, rfl⟩ := hc
  intro i b hb
  match i with
  | 0 => simp at hb; subst hb; rfl
  | 1 => simp at hb; subst hb; rfl
  | i + 2 => simp at hb

/-- The indices of an adopted chain are not checked: a node can end up with a chain whose second block has the index 9. -/
theorem C66_indices_refuted : ∃ (ops : List (Op Nat Nat)), init toy 0 = .ok toy0 ∧
    validChain toy (serveAll toy 3 toy0 ops).chain = .ok true ∧ ¬ Counted (serveAll toy 3 toy0 ops).chain := by
  refine ⟨[.resolve [.answer 200 2 [⟨1, 0, [], 100, 1⟩, ⟨9, 0, [], 0, 206⟩]]], rfl, by decide, ?_⟩
  intro h
  have := h 1 ⟨9, 0, [], 0, 206⟩ (by decide)
  simp at this

omit [DecidableEq Hs] in
/-- **C66, mining.** `/mine` on a node with a chain returns as soon as there is a proof below the number of attempts; the block
it returns is the new last one, with the least valid proof, the hash of the old last block, and all pending transactions followed by the reward. -/
theorem C66_mine (C : Crypto Tx Hs) (fuel : Nat) (s : State Tx Hs) (last : Block Tx Hs) (hl : s.chain.getLast? = some last) (reward : Tx) (time : Nat)
    (k : Nat) (hk : C.vp last.proof k (C.hash last) = true) (hmin : ∀ q < k, C.vp last.proof q (C.hash last) = false) (hf : k < fuel) :
    mine C fuel s reward time = .ok (⟨s.chain.length + 1, time, s.current ++ [reward], k, C.hash last⟩,
      { s with current := [], chain := s.chain ++ [⟨s.chain.length + 1, time, s.current ++ [reward], k, C.hash last⟩] }) := by
  obtain ⟨p, hp⟩ := powLoop_returns C last.proof (C.hash last) k 0 (by simpa using hk) fuel hf
  obtain ⟨h1, -, h3⟩ := Chain.powLoop_spec C _ _ _ _ _ hp
  have hpk : p = k := by
    rcases lt_trichotomy p k with h | h | h
    · rw [hmin p h] at h1; simp at h1
    · exact h
    · rw [h3 k (by omega) h] at hk; simp at hk
  subst hpk
  simp [mine, hl, proofOfWork, hp, newTransaction, newBlock, bind, Except.bind]

example : toy0.chain.getLast? = some ⟨1, 0, [], 100, 1⟩ ∧ toy.vp 100 0 206 = true := by decide

/-- **C67.** Without consensus, the transactions of the chain followed by the pending ones are, after any history, those there were
before followed by those the requests added, in the order of the requests: none is lost, doubled or moved past another. -/
theorem C67_conserved (C : Crypto Tx Hs) (fuel time : Nat) (hm : ∀ lp lh, ∃ k < fuel, C.vp lp k lh = true) (ops : List (Op Tx Hs))
    (ho : ∀ rs, Op.resolve rs ∉ ops) : ∃ s0, init C time = .ok s0 ∧ allTx (serveAll C fuel s0 ops) = ops.flatMap added := by
  refine ⟨_, init_eq C time, ?_⟩
  have key : ∀ (s : State Tx Hs), s.chain ≠ [] → allTx (serveAll C fuel s ops) = allTx s ++ ops.flatMap added := by
    induction ops with
    | nil => intro s _; simp [serveAll]
    | cons op ops ih =>
      intro s hs
      obtain ⟨h1, h2⟩ := serve_allTx C fuel hm s hs op (fun rs e => ho rs (by simp [e]))
      have h3 := ih (fun rs h => ho rs (List.mem_cons_of_mem _ h)) _ h2
      rw [show serveAll C fuel s (op :: ops) = serveAll C fuel (serve C fuel s op) ops from rfl, h3, h1]
      simp
  rw [key _ (by simp)]
  simp [allTx]

example : ∀ lp lh, ∃ k < 3, toy.vp lp k lh = true := by
  intro lp lh
  refine ⟨(3 - (lp + lh) % 3) % 3, by omega, ?_⟩
  simp only [toy, beq_iff_eq]
  omega

/-- Consensus does lose transactions: those of the chain that is replaced. -/
theorem C67_resolve_loses : ∃ ops : List (Op Nat Nat), init toy 0 = .ok toy0 ∧ 7 ∈ ops.flatMap added ∧ 7 ∉ allTx (serveAll toy 3 toy0 ops) :=
  ⟨[.submit 7, .mine 1 0, .resolve [.answer 200 3 [⟨1, 0, [], 100, 1⟩, ⟨2, 0, [], 0, 206⟩, ⟨3, 0, [], 0, 1032⟩]]], rfl, by decide, by decide⟩

/-- **C68.** If the peers that answer claim the true lengths of their chains and no request raises, `resolve_conflicts` returns. It
returns `True` exactly when some peer has a valid chain that is strictly longer; the new chain is then one of the longest of
these. Otherwise nothing changes. -/
theorem C68_longest_partial (C : Crypto Tx Hs) (s : State Tx Hs) (rs : List (Resp Tx Hs)) (hr : ∀ e, Resp.raises e ∉ rs)
    (hh : ∀ l c, Resp.answer 200 l c ∈ rs → l = c.length) :
    ∃ b s', resolve C s rs = .ok (b, s') ∧ s'.current = s.current ∧ s'.nodes = s.nodes ∧
      (∀ l c, Resp.answer 200 l c ∈ rs → validChain C c = .ok true → c.length ≤ s'.chain.length) ∧
      ((b = false ∧ s' = s ∧ ∀ l c, Resp.answer 200 l c ∈ rs → validChain C c = .ok true → c.length ≤ s.chain.length) ∨
       (b = true ∧ s.chain.length < s'.chain.length ∧ validChain C s'.chain = .ok true ∧ ∃ l, Resp.answer 200 l s'.chain ∈ rs)) := by
  obtain ⟨r, hl⟩ := resolveLoop_returns C rs hr (fun l c h e => by rw [hh l c h, e]; simp) s.chain.length none (by omega)
  obtain ⟨M, h1, h2, h3⟩ := resolveLoop_max C rs hh _ _ _ hl
  rcases h2 with ⟨rfl, hM⟩ | ⟨c, rfl, hM, hlt⟩
  · refine ⟨false, s, by simp [resolve, hl, bind, Except.bind], rfl, rfl, ?_, Or.inl ⟨rfl, rfl, ?_⟩⟩
    · intro l c hm hv
      have := h3 l c hm hv
      omega
    · intro l c hm hv
      have := h3 l c hm hv
      omega
  · have hne : c ≠ [] := by
      rintro rfl
      simp at hM; omega
    have e : resolve C s rs = .ok (true, { s with chain := c }) := by
      cases c with
      | nil => exact absurd rfl hne
      | cons a t => simp [resolve, hl, bind, Except.bind]
    obtain ⟨-, -, h4⟩ := resolve_ok C s rs _ _ e
    rcases h4 with ⟨h4, -⟩ | ⟨-, l, h5, -, h6⟩
    · simp at h4
    · refine ⟨true, { s with chain := c }, e, rfl, rfl, ?_, Or.inr ⟨rfl, by show s.chain.length < c.length; omega, h6, l, h5⟩⟩
      intro l c' hm hv
      have := h3 l c' hm hv
      show c'.length ≤ c.length
      omega

/-- This meets the hypotheses of `C68_adopted`. -/
example : (resolve toy toy0 [.answer 200 2 [⟨1, 0, [], 100, 1⟩, ⟨2, 0, [], 0, 206⟩], .answer 500 0 [],
    .answer 200 3 [⟨1, 0, [], 100, 1⟩, ⟨2, 0, [], 0, 206⟩, ⟨3, 0, [], 0, 1032⟩]]).toOption.map (fun r => (r.1, r.2.chain.length)) = some (true, 3) := by decide

/-- What holds of every peer: a chain that is adopted passes `valid_chain` and comes from a peer that answered 200 and claimed more. -/
theorem C68_adopted (C : Crypto Tx Hs) (s s' : State Tx Hs) (rs : List (Resp Tx Hs)) (b : Bool) (h : resolve C s rs = .ok (b, s')) :
    s'.current = s.current ∧ s'.nodes = s.nodes ∧ ((b = false ∧ s' = s) ∨
      (b = true ∧ ∃ l, Resp.answer 200 l s'.chain ∈ rs ∧ (s.chain.length : Int) < l ∧ validChain C s'.chain = .ok true)) :=
  resolve_ok C s rs b s' h

/-- The claimed length is trusted: for every node there is an answer that replaces its chain by one of a single block. -/
theorem C68_length_refuted (C : Crypto Tx Hs) (s : State Tx Hs) (a : Block Tx Hs) :
    resolve C s [.answer 200 (s.chain.length + 1) [a]] = .ok (true, { s with chain := [a] }) := by
  simp [resolve, resolveLoop, validChain, validLoop, bind, Except.bind]

/-- A peer that claims a length and sends no block makes the node raise, whatever the other peers after it have. -/
theorem C68_empty_refuted (C : Crypto Tx Hs) (s : State Tx Hs) (rs : List (Resp Tx Hs)) :
    resolve C s (.answer 200 (s.chain.length + 1) [] :: rs) = .error .indexError := by
  simp [resolve, resolveLoop, validChain, bind, Except.bind]

/-- A peer that cannot be reached makes the node raise, whatever the other peers have. -/
theorem C68_unreachable_refuted (C : Crypto Tx Hs) (s : State Tx Hs) (e : PyErr) (rs : List (Resp Tx Hs)) :
    resolve C s (.raises e :: rs) = .error e := by
  simp [resolve, resolveLoop, bind, Except.bind]

/-- A new node with no request in progress. -/
def fresh (C : Crypto Tx Hs) (time : Nat) : Conf Tx Hs := ⟨⟨[], [⟨1, time, [], 100, C.one⟩], []⟩, fun _ => .start⟩

omit [DecidableEq Hs] in
theorem fresh_counted (C : Crypto Tx Hs) (time : Nat) : Counted (fresh C time).shared.chain := by
  intro i b hb
  have hi : i < 1 := (List.getElem?_eq_some_iff.mp hb).1
  have : i = 0 := by omega
  subst this
  simp [fresh] at hb
  subst hb; rfl

/-- **C69.** False: two `/mine` requests that both read the last block before either appends leave an invalid chain. -/
theorem C69_valid_refuted : validChain toy (concAll toy 3 (fresh toy 0)
    [.step 0 1 5, .step 1 1 6, .step 0 1 5, .step 0 1 5, .step 1 1 6, .step 1 1 6]).shared.chain = .ok false := by decide

omit [DecidableEq Hs] in
/-- **C69, every schedule.** Under every interleaving of `/mine` requests and submissions the indices count up and every block but the
first links to, and proves work for, some earlier block: the chain is a tree with the first block as its root. -/
theorem C69_tree_partial (C : Crypto Tx Hs) (fuel time : Nat) (sched : List (Choice Tx)) :
    init C time = .ok (fresh C time).shared ∧
    Treelike C (concAll C fuel (fresh C time) sched).shared.chain ∧ Counted (concAll C fuel (fresh C time) sched).shared.chain := by
  have h := concAll_inv C fuel sched (fresh C time) (fun i b p h => by simp [fresh, Pc.held] at h) (by simp [fresh])
    (fun j b hb => by simp [fresh] at hb) (fresh_counted C time)
  exact ⟨rfl, h.2.2.1, h.2.2.2⟩

/-- **C69, without overlap.** If at no point of the schedule two `/mine` requests are in progress, the chain is valid at its end,
wherever submissions fall. -/
theorem C69_exclusive_partial (C : Crypto Tx Hs) (fuel time : Nat) (sched : List (Choice Tx))
    (he : ∀ k, Exclusive (concAll C fuel (fresh C time) (sched.take k))) :
    validChain C (concAll C fuel (fresh C time) sched).shared.chain = .ok true := by
  rw [validChain_iff]
  refine ⟨?_, concAll_excl C fuel sched (fresh C time) (fun i b p h => by simp [fresh, Pc.held] at h) ?_ he⟩
  · exact (concAll_inv C fuel sched (fresh C time) (fun i b p h => by simp [fresh, Pc.held] at h) (by simp [fresh])
      (fun j b hb => by simp [fresh] at hb) (fresh_counted C time)).2.1
  · intro i a b _ hb
    simp [fresh] at hb

/-- Two requests in turn, a submission between two steps of the second. -/
example : ∀ k, Exclusive (concAll toy 3 (fresh toy 0)
    ([.step 0 1 5, .step 0 1 5, .step 0 1 5, .step 1 2 6, .submit 9, .step 1 2 6, .step 1 2 6].take k)) := by
  have key : ∀ k ≤ 7, ∀ i : Nat, 2 ≤ i → ((concAll toy 3 (fresh toy 0)
    ([.step 0 1 5, .step 0 1 5, .step 0 1 5, .step 1 2 6, .submit 9, .step 1 2 6, .step 1 2 6].take k)).threads i) = .start := by
    intro k hk i hi
    apply concAll_idle
    intro r t hm
    have hm := List.mem_of_mem_take hm
    simp at hm
    omega
  have key2 : ∀ k ≤ 7, (((concAll toy 3 (fresh toy 0)
    ([.step 0 1 5, .step 0 1 5, .step 0 1 5, .step 1 2 6, .submit 9, .step 1 2 6, .step 1 2 6].take k)).threads 0).held = none ∨
    ((concAll toy 3 (fresh toy 0)
    ([.step 0 1 5, .step 0 1 5, .step 0 1 5, .step 1 2 6, .submit 9, .step 1 2 6, .step 1 2 6].take k)).threads 1).held = none) := by decide
  intro k
  wlog hk : k ≤ 7 generalizing k
  · have := this 7 (le_refl _)
    rw [List.take_of_length_le (by simp; omega)]
    simpa using this
  intro i j hi hj
  have hi2 : i < 2 := by
    by_contra h
    rw [key k hk i (by omega)] at hi
    exact hi rfl
  have hj2 : j < 2 := by
    by_contra h
    rw [key k hk j (by omega)] at hj
    exact hj rfl
  by_contra hij
  rcases key2 k hk with h | h
  · have : i = 0 ∨ j = 0 := by omega
    rcases this with rfl | rfl
    · exact hi h
    · exact hj h
  · have : i = 1 ∨ j = 1 := by omega
    rcases this with rfl | rfl
    · exact hi h
    · exact hj h

/-- **C83.** The index `new_transaction` returns is the index of the block that holds the transaction: at any later time either the
chain is shorter and the transaction is pending, or the block at that position has that index and holds it. -/
theorem C83_index_partial (C : Crypto Tx Hs) (fuel time : Nat) (pre post : List (Op Tx Hs)) (t : Tx) (hpre : ∀ rs, Op.resolve rs ∉ pre)
    (hpost : ∀ rs, Op.resolve rs ∉ post) : ∃ s0 i s1, init C time = .ok s0 ∧ newTransaction (serveAll C fuel s0 pre) t = .ok (i, s1) ∧
      (((serveAll C fuel s1 post).chain.length < i ∧ t ∈ (serveAll C fuel s1 post).current) ∨
        ∃ b, (serveAll C fuel s1 post).chain[i - 1]? = some b ∧ b.index = i ∧ t ∈ b.transactions) := by
  obtain ⟨s0, h0, hc⟩ := C66_indices_partial C fuel time pre (fun rs h => absurd h (hpre rs))
  obtain ⟨s0', h0', hn, -⟩ := C66_valid C fuel time pre
  rw [h0] at h0'
  simp only [Except.ok.injEq] at h0'
  subst h0'
  obtain ⟨last, hl⟩ : ∃ last, (serveAll C fuel s0 pre).chain.getLast? = some last := ⟨_, List.getLast?_eq_getLast_of_ne_nil hn⟩
  have hlen : 0 < (serveAll C fuel s0 pre).chain.length := List.length_pos_of_ne_nil hn
  have hidx : last.index = (serveAll C fuel s0 pre).chain.length := by
    have := hc ((serveAll C fuel s0 pre).chain.length - 1) last (by rw [← List.getLast?_eq_getElem?]; exact hl)
    omega
  refine ⟨s0, last.index + 1, ⟨(serveAll C fuel s0 pre).current ++ [t], (serveAll C fuel s0 pre).chain, (serveAll C fuel s0 pre).nodes⟩, h0,
    by simp [newTransaction, hl], ?_⟩
  have hp := promised_serveAll C fuel (last.index + 1) t post
    ⟨(serveAll C fuel s0 pre).current ++ [t], (serveAll C fuel s0 pre).chain, (serveAll C fuel s0 pre).nodes⟩ (Or.inl ⟨by simp [hidx], by simp⟩) hpost
  rcases hp with ⟨h1, h2⟩ | h
  · exact Or.inl ⟨by omega, h2⟩
  · exact Or.inr h

example : (newTransaction (serveAll toy 3 toy0 [.mine 1 0]) 7).toOption.map (·.1) = some 3 ∧
    (serveAll toy 3 toy0 [.mine 1 0, .submit 7, .mine 1 0, .mine 1 0]).chain.map (·.transactions) = [[], [1], [7, 1], [1]] := by decide

/-- After consensus the index can be wrong: the transaction announced for block 2 ends up in block 3. -/
theorem C83_index_refuted : init toy 0 = .ok toy0 ∧ (newTransaction toy0 7).toOption.map (·.1) = some 2 ∧
    (serveAll toy 3 toy0 [.submit 7, .resolve [.answer 200 2 [⟨1, 0, [], 100, 1⟩, ⟨2, 0, [], 0, 206⟩]], .mine 1 0]).chain.map (·.transactions) =
      [[], [], [7, 1]] := by
  refine ⟨rfl, by decide, by decide⟩

omit [DecidableEq Hs] in
/-- **C84, atomic calls.** If `new_transaction` and `new_block` are not interrupted, every interleaving of `/mine` requests and
submissions keeps exactly the transactions that were added, in the order they were added. -/
theorem C84_conserved_partial (C : Crypto Tx Hs) (fuel time : Nat) (sched : List (Choice Tx)) :
    allTx (concAll C fuel (fresh C time) sched).shared = addedByAll C fuel (fresh C time) sched := by
  have key : ∀ (c : Conf Tx Hs), Held C c → c.shared.chain ≠ [] → Treelike C c.shared.chain → Counted c.shared.chain →
      allTx (concAll C fuel c sched).shared = allTx c.shared ++ addedByAll C fuel c sched := by
    induction sched with
    | nil => intro c _ _ _ _; simp [concAll, addedByAll]
    | cons ch sched ih =>
      intro c h1 h2 h3 h4
      obtain ⟨k1, k2, k3, k4⟩ := conc_inv C fuel c ch h1 h2 h3 h4
      rw [show concAll C fuel c (ch :: sched) = concAll C fuel (conc C fuel c ch) sched from rfl, ih _ k1 k2 k3 k4,
        conc_allTx C fuel c ch h2]
      simp [addedByAll]
  rw [key _ (fun i b p h => by simp [fresh, Pc.held] at h) (by simp [fresh]) (fun j b hb => by simp [fresh] at hb) (fresh_counted C time)]
  simp [allTx, fresh]

example : addedByAll toy 3 (fresh toy 0) [.step 0 1 5, .step 1 2 6, .submit 9, .step 1 2 6, .step 0 1 5, .step 0 1 5, .step 1 2 6] = [9, 2, 1] := by decide

/-- **C84, C85, one after the other.** At the grain of single accesses: threads run one after the other, in any order, do what the
atomic requests do. -/
theorem C84_serial_partial (C : Crypto Tx Hs) (fuel time : Nat) (threads : List (HPc Tx Hs)) (order : List Nat) (ops : List (Op Tx Hs))
    (hnd : order.Nodup) (hreq : List.Forall₂ (fun i op => ∃ pc, threads[i]? = some pc ∧ Request pc op) order ops) :
    init C time = .ok (hinit C time).view ∧
    (hconcAll C fuel ⟨hinit C time, threads⟩ (order.flatMap (List.replicate 7))).shared.view = serveAll C fuel (hinit C time).view ops :=
  ⟨rfl, hconcAll_serial C fuel order ⟨hinit C time, threads⟩ ops (hinit_wf C time) (by simp [hinit]) hnd hreq⟩

example : List.Forall₂ (fun i op => ∃ pc, ([.mine 1 5, .submit 7] : List (HPc Nat Nat))[i]? = some pc ∧ Request pc op) [1, 0] [.submit 7, .mine 1 5] :=
  .cons ⟨_, rfl, .submit 7⟩ (.cons ⟨_, rfl, .mine 1 5⟩ .nil)

/-- **C84.** False at the grain of single accesses: two `/mine` requests that both build their block before either resets the list
put the same list into both blocks. The transaction 7, submitted once, is in two blocks. -/
theorem C84_conserved_refuted : (hconcAll toy 3 ⟨hinit toy 0, [.submit 7, .mine 1 5, .mine 2 6]⟩
    [0, 0, 1, 1, 1, 1, 1, 2, 2, 2, 2, 2, 1, 1, 2, 2]).shared.view.chain.map (·.transactions) = [[], [7, 1, 2], [7, 1, 2]] := by decide

/-- **C85.** Without consensus, requests served one after the other never alter or remove a block: the chain before is a prefix of
the chain after. -/
theorem C85_immutable_partial (C : Crypto Tx Hs) (fuel : Nat) (s : State Tx Hs) (ops : List (Op Tx Hs)) (ho : ∀ rs, Op.resolve rs ∉ ops) :
    s.chain <+: (serveAll C fuel s ops).chain := by
  induction ops generalizing s with
  | nil => exact List.prefix_refl _
  | cons op ops ih =>
    exact (serve_prefix C fuel s op (fun rs e => ho rs (by simp [e]))).trans (ih _ (fun rs hm => ho rs (List.mem_cons_of_mem _ hm)))

omit [DecidableEq Hs] in
/-- The same under every interleaving of atomic `new_transaction` and `new_block`. -/
theorem C85_immutable_concurrent_partial (C : Crypto Tx Hs) (fuel : Nat) (c : Conf Tx Hs) (sched : List (Choice Tx)) :
    c.shared.chain <+: (concAll C fuel c sched).shared.chain := by
  induction sched generalizing c with
  | nil => exact List.prefix_refl _
  | cons ch sched ih =>
    refine List.IsPrefix.trans ?_ (ih (conc C fuel c ch))
    rcases conc_cases C fuel c ch with ⟨h1, -⟩ | ⟨i, a, p, b, -, -, -, -, h5, -⟩
    · rw [h1]
    · rw [h5]; exact List.prefix_append _ _

/-- **C85.** False at the grain of single accesses, even when no two `/mine` requests overlap: a submission that has loaded the list
before a block is mined appends to that block afterwards. The two blocks are mined one after the other (second line), the chain
is valid, and the step that ends the submission alters the middle block and makes the chain invalid. -/
theorem C85_immutable_refuted :
    let c0 : HConf Nat Nat := ⟨hinit toy 0, [.submit 7, .mine 1 5, .mine 2 6]⟩
    let c1 := hconcAll toy 3 c0 (0 :: List.replicate 7 1 ++ List.replicate 7 2)
    let c2 := hconc toy 3 c1 0
    validChain toy c1.shared.view.chain = .ok true ∧ c1.shared.view.chain.map (·.transactions) = [[], [1], [2]] ∧
    validChain toy c2.shared.view.chain = .ok false ∧ c2.shared.view.chain.map (·.transactions) = [[], [1, 7], [2]] := by decide

end Verif.Props
