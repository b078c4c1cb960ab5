import Verif.Proofs.Ledger
import Verif.Props.BlockchainNet
/-!
# C157: what consensus does to transactions; C158: where coins come from

`mined chain` is the list of the transactions in the blocks of a chain, `allTx s` the same followed by those that are pending at a node, `acceptedAt i op`
the transactions node `i` accepts when it serves `op`; `balance` and `Payment` are in `Spec/Ledger`.
-/

namespace Verif.Props
open Verif.Chain Verif.Spec

variable {Tx Hs : Type} [DecidableEq Hs]

/-- A toy instance for the examples: hashes are numbers, every number that makes a sum divisible by three is a proof. -/
def toyPay (Tx : Type) : Crypto Tx Nat := ⟨fun b => b.index + 2 * b.proof + 3 * b.transactions.length + 5 * b.previousHash, fun lp p lh => (lp + p + lh) % 3 == 0, 1⟩

theorem toyPay_mines (Tx : Type) : ∀ lp lh, ∃ k < 3, (toyPay Tx).vp lp k lh = true := by
  intro lp lh
  refine ⟨(3 - (lp + lh) % 3) % 3, by omega, ?_⟩
  simp only [toyPay, beq_iff_eq]
  omega

/-- **C157** fails, loss. Whatever the hash function: two nodes are started. A transaction is submitted to the first, which mines it (its chain is then valid and
holds the transaction). The second mines two blocks, the first asks for its chain, and the transaction is in no block and pending at no node. -/
theorem C157_lost_refuted (C : Crypto Tx Hs) (fuel : Nat) (hm : ∀ lp lh, ∃ k < fuel, C.vp lp k lh = true) (times : Nat → Nat) (host : String → Nat)
    (hb : host "b" = 1) (t r0 r1 : Tx) (h1 : t ≠ r1) : ∃ ops1 ops2 : List (NetOp Tx), t ∈ ops1.flatMap (acceptedAt 0) ∧
      (let net := netServeAll C host fuel (newNet C times) ops1
       validChain C (net 0).chain = .ok true ∧ mined (net 0).chain = [t, r0]) ∧
      ∀ i, t ∉ allTx (netServeAll C host fuel (newNet C times) (ops1 ++ ops2) i) := by
  obtain ⟨b, e, et, el⟩ := serve_mine C fuel hm ⟨[t], [⟨1, times 0, [], 100, C.one⟩], []⟩ (by simp) r0 0
  obtain ⟨c, f, ft, fl⟩ := serve_mine C fuel hm ⟨[], [⟨1, times 1, [], 100, C.one⟩], []⟩ (by simp) r1 0
  obtain ⟨d, g, gt, gl⟩ := serve_mine C fuel hm ⟨[], [⟨1, times 1, [], 100, C.one⟩] ++ [c], []⟩ (by simp) r1 0
  have single : ∀ x : Block Tx Hs, Linked C [x] := fun x i a b ha hb => by simp at hb
  have s0 : serve C fuel (newNet C times 0) (.submit t) = ⟨[t], [⟨1, times 0, [], 100, C.one⟩], []⟩ := rfl
  have net2 : netServeAll C host fuel (newNet C times) [.submit 0 t, .mine 0 r0 0] =
      Function.update (newNet C times) 0 ⟨[], [⟨1, times 0, [], 100, C.one⟩] ++ [b], []⟩ := by
    simp only [netServeAll, List.foldl_cons, List.foldl_nil, netServe, Function.update_self, s0, e, Function.update_idem]
  refine ⟨[.submit 0 t, .mine 0 r0 0], [.register 0 "b" "", .mine 1 r1 0, .mine 1 r1 0, .consensus 0], by simp [acceptedAt], ?_, ?_⟩
  · rw [net2]
    simp only [Function.update_self]
    refine ⟨(validChain_iff C _).2 ⟨by simp, el (single _)⟩, by simp [mined, et]⟩
  · have hreg : serve C fuel ⟨[], [⟨1, times 0, [], 100, C.one⟩] ++ [b], []⟩ (.register "b" "") =
        ⟨[], [⟨1, times 0, [], 100, C.one⟩] ++ [b], ["b"]⟩ := by simp [serve, registerNode]
    have hres := resolve_one C ⟨[], [⟨1, times 0, [], 100, C.one⟩] ++ [b], ["b"]⟩ ([⟨1, times 1, [], 100, C.one⟩] ++ [c] ++ [d])
      (gl (fl (single _))) (by simp)
    have final : netServeAll C host fuel (newNet C times)
        ([.submit 0 t, .mine 0 r0 0] ++ [.register 0 "b" "", .mine 1 r1 0, .mine 1 r1 0, .consensus 0]) =
        Function.update (Function.update (newNet C times) 1 ⟨[], [⟨1, times 1, [], 100, C.one⟩] ++ [c] ++ [d], []⟩) 0
          ⟨[], [⟨1, times 1, [], 100, C.one⟩] ++ [c] ++ [d], ["b"]⟩ := by
      have step : netServeAll C host fuel (newNet C times) ([.submit 0 t, .mine 0 r0 0] ++ [.register 0 "b" "", .mine 1 r1 0, .mine 1 r1 0]) =
          Function.update (Function.update (newNet C times) 0 ⟨[], [⟨1, times 0, [], 100, C.one⟩] ++ [b], ["b"]⟩) 1
            ⟨[], [⟨1, times 1, [], 100, C.one⟩] ++ [c] ++ [d], []⟩ := by
        have e2 := net2
        simp only [netServeAll] at e2 ⊢
        rw [List.foldl_append, e2]
        have n1 : newNet C times 1 = (⟨[], [⟨1, times 1, [], 100, C.one⟩], []⟩ : State Tx Hs) := rfl
        simp only [List.foldl_cons, List.foldl_nil, netServe, Function.update_self, hreg, Function.update_idem,
          Function.update_of_ne (show (1 : Nat) ≠ 0 by decide), n1, f, g]
      have e3 := step
      simp only [netServeAll, List.foldl_append, List.foldl_cons, List.foldl_nil, netServe] at e3 ⊢
      rw [e3]
      unfold consensus
      simp only [Function.update_self, Function.update_of_ne (show (0 : Nat) ≠ 1 by decide), List.map_cons, List.map_nil, hb, fullChain, hres]
      rw [Function.update_comm (show (0 : Nat) ≠ 1 by decide), Function.update_idem, Function.update_comm (show (1 : Nat) ≠ 0 by decide)]
    intro i
    rw [final]
    have hcd : t ∉ mined ([⟨1, times 1, [], 100, C.one⟩] ++ [c] ++ [d]) := by simp [mined, ft, gt, h1]
    by_cases i0 : i = 0
    · subst i0
      simpa [allTx, mined] using hcd
    · rw [Function.update_of_ne i0]
      by_cases i1 : i = 1
      · subst i1
        simpa [allTx, mined] using hcd
      · rw [Function.update_of_ne i1]
        simp [allTx, newNet]

/-- **C157** fails, repetition. A transaction submitted once to each of two nodes, mined by one, whose chain the other takes over and extends: it is in two blocks
of a valid chain. -/
theorem C157_twice_refuted (C : Crypto Tx Hs) (fuel : Nat) (hm : ∀ lp lh, ∃ k < fuel, C.vp lp k lh = true) (times : Nat → Nat) (host : String → Nat)
    (hb : host "b" = 1) (t r0 r1 : Tx) : ∃ ops : List (NetOp Tx), ops.flatMap (acceptedAt 0) = [t, r0] ∧ ops.flatMap (acceptedAt 1) = [t, r1] ∧
      (let net := netServeAll C host fuel (newNet C times) ops
       validChain C (net 0).chain = .ok true ∧ mined (net 0).chain = [t, r1, t, r0]) := by
  obtain ⟨c, f, ft, fl⟩ := serve_mine C fuel hm ⟨[t], [⟨1, times 1, [], 100, C.one⟩], []⟩ (by simp) r1 0
  obtain ⟨d, g, gt, gl⟩ := serve_mine C fuel hm ⟨[t], [⟨1, times 1, [], 100, C.one⟩] ++ [c], ["b"]⟩ (by simp) r0 0
  have single : ∀ x : Block Tx Hs, Linked C [x] := fun x i a b ha hb => by simp at hb
  have hres := resolve_one C ⟨[t], [⟨1, times 0, [], 100, C.one⟩], ["b"]⟩ ([⟨1, times 1, [], 100, C.one⟩] ++ [c]) (fl (single _)) (by simp)
  have final : netServeAll C host fuel (newNet C times)
      [.submit 0 t, .submit 1 t, .mine 1 r1 0, .register 0 "b" "", .consensus 0, .mine 0 r0 0] 0 =
      ⟨[], [⟨1, times 1, [], 100, C.one⟩] ++ [c] ++ [d], ["b"]⟩ := by
    have s0 : serve C fuel (newNet C times 0) (.submit t) = ⟨[t], [⟨1, times 0, [], 100, C.one⟩], []⟩ := rfl
    have s1 : serve C fuel (newNet C times 1) (.submit t) = ⟨[t], [⟨1, times 1, [], 100, C.one⟩], []⟩ := rfl
    have hreg : serve C fuel ⟨[t], [⟨1, times 0, [], 100, C.one⟩], []⟩ (.register "b" "") = ⟨[t], [⟨1, times 0, [], 100, C.one⟩], ["b"]⟩ := by
      simp [serve, registerNode]
    simp only [netServeAll, List.foldl_cons, List.foldl_nil, netServe, consensus, Function.update_self, s0, s1,
      Function.update_of_ne (show (1 : Nat) ≠ 0 by decide), Function.update_of_ne (show (0 : Nat) ≠ 1 by decide), f, hreg, List.map_cons, List.map_nil, hb,
      fullChain, hres, g]
  refine ⟨[.submit 0 t, .submit 1 t, .mine 1 r1 0, .register 0 "b" "", .consensus 0, .mine 0 r0 0], by simp [acceptedAt], by simp [acceptedAt], ?_⟩
  simp only [final]
  exact ⟨(validChain_iff C _).2 ⟨by simp, gl (fl (single _))⟩, by simp [mined, ft, gt]⟩

/-- This meets the hypotheses of `C157_lost_refuted` and `C157_twice_refuted`. -/
example : (∀ lp lh, ∃ k < 3, (toyPay Nat).vp lp k lh = true) ∧ (fun s : String => if s = "b" then 1 else 0) "b" = 1 ∧ (7 : Nat) ≠ 2 :=
  ⟨toyPay_mines Nat, rfl, by decide⟩

/-- **C157**, exactly what an adoption does, for arbitrary peers: the transactions of the new chain, then all that were pending, then all that are accepted
later, as long as no other chain is adopted.  What was in the blocks of the old chain and is not in those of the new one is gone; what was pending and is
in the blocks of the new one is there twice. -/
theorem C157_adoption_partial (C : Crypto Tx Hs) (fuel : Nat) (hm : ∀ lp lh, ∃ k < fuel, C.vp lp k lh = true) (s s' : State Tx Hs) (rs : List (Resp Tx Hs))
    (h : resolve C s rs = .ok (true, s')) (post : List (Op Tx Hs)) (hp : ∀ rs, Op.resolve rs ∉ post) :
    (∃ l, Resp.answer 200 l s'.chain ∈ rs) ∧ allTx (serveAll C fuel s' post) = mined s'.chain ++ s.current ++ post.flatMap added := by
  obtain ⟨h1, -, ⟨h2, -⟩ | ⟨-, l, h3, -, h4⟩⟩ := resolve_ok C s rs true s' h
  · exact absurd h2 (by decide)
  · refine ⟨⟨l, h3⟩, ?_⟩
    rw [serveAll_allTx C fuel hm post hp s' ((validChain_iff C _).1 h4).1, allTx, h1]
    rfl

/-- This meets the hypotheses of `C157_adoption_partial`: 7 is lost, 8 is there twice. -/
example : (resolve (toyPay Nat) ⟨[8], [⟨1, 0, [], 100, 1⟩, ⟨2, 0, [7], 0, 206⟩], []⟩
      [.answer 200 3 [⟨1, 0, [], 100, 1⟩, ⟨2, 0, [8], 0, 206⟩, ⟨3, 0, [], 0, 1035⟩]]).toOption.map (fun r => (r.1, allTx r.2)) =
    some (true, [8, 8]) := by decide

/-- **C157** holds as long as the chains that are adopted have the transactions of the chains they replace: no transaction a node has accepted is lost,
whatever its peers send. -/
theorem C157_kept_partial (C : Crypto Tx Hs) (fuel time : Nat) (hm : ∀ lp lh, ∃ k < fuel, C.vp lp k lh = true) (ops : List (Op Tx Hs)) :
    ∃ s0, init C time = .ok s0 ∧ ((∀ pre rs post, ops = pre ++ Op.resolve rs :: post →
      ∀ t ∈ mined (serveAll C fuel s0 pre).chain, t ∈ mined (serveAll C fuel s0 (pre ++ [.resolve rs])).chain) →
      ∀ t ∈ ops.flatMap added, t ∈ allTx (serveAll C fuel s0 ops)) := by
  refine ⟨_, init_eq C time, ?_⟩
  generalize hs0 : (⟨[], [⟨1, time, [], 100, C.one⟩], []⟩ : State Tx Hs) = s0
  have hv : ∀ ops, (serveAll C fuel s0 ops).chain ≠ [] := fun ops => by
    have h0 : validChain C s0.chain = .ok true := by rw [← hs0]; rfl
    exact ((validChain_iff C _).1 (serveAll_valid C fuel s0 ops h0)).1
  induction ops using List.reverseRecOn with
  | nil => intro _ t ht; simp at ht
  | append_singleton ops op ih =>
    intro h t ht
    have e : serveAll C fuel s0 (ops ++ [op]) = serve C fuel (serveAll C fuel s0 ops) op := by simp [serveAll]
    have ih := ih fun pre rs post he => h pre rs (post ++ [op]) (by rw [he]; simp)
    rw [List.flatMap_append, List.mem_append] at ht
    by_cases hop : ∃ rs, op = .resolve rs
    · obtain ⟨rs, rfl⟩ := hop
      have ht := ih t (ht.resolve_right (by simp [added]))
      have hk := h ops rs [] (by simp)
      have hc : (serveAll C fuel s0 (ops ++ [.resolve rs])).current = (serveAll C fuel s0 ops).current := by
        rw [e]
        cases hr : resolve C (serveAll C fuel s0 ops) rs with
        | error x => simp only [serve, hr]
        | ok r => simp only [serve, hr]; exact (resolve_ok C _ rs r.1 r.2 hr).1
      rcases List.mem_append.1 ht with ht | ht
      · exact List.mem_append.2 (.inl (hk t ht))
      · exact List.mem_append.2 (.inr (by rw [hc]; exact ht))
    · rw [e, (serve_allTx C fuel hm _ (hv ops) op fun rs he => hop ⟨rs, he⟩).1]
      rcases ht with ht | ht
      · exact List.mem_append.2 (.inl (ih t ht))
      · exact List.mem_append.2 (.inr (by simpa using ht))

/-- A history that meets the hypothesis of `C157_kept_partial`: the chain adopted has the transactions of the one it replaces. -/
example : ∀ pre rs post, ([.submit 7, .mine 1 0, .resolve [.answer 200 3 [⟨1, 0, [], 100, 1⟩, ⟨2, 0, [7, 1], 0, 206⟩, ⟨3, 0, [], 1, 1038⟩]], .mine 2 5] : List (Op Nat Nat)) =
      pre ++ Op.resolve rs :: post → ∀ t ∈ mined (serveAll (toyPay Nat) 3 ⟨[], [⟨1, 0, [], 100, 1⟩], []⟩ pre).chain,
        t ∈ mined (serveAll (toyPay Nat) 3 ⟨[], [⟨1, 0, [], 100, 1⟩], []⟩ (pre ++ [.resolve rs])).chain := by
  intro pre rs post h
  rcases pre with _ | ⟨a, _ | ⟨b, _ | ⟨c, _ | ⟨d, pre⟩⟩⟩⟩
  · simp at h
  · simp at h
  · simp only [List.cons_append, List.nil_append, List.cons.injEq, Op.resolve.injEq] at h
    obtain ⟨rfl, rfl, rfl, rfl⟩ := h
    decide
  · simp at h
  · simp at h

omit [DecidableEq Hs] in
/-- The nodes of a new network. -/
theorem oneMiner_new (C : Crypto Tx Hs) (times : Nat → Nat) (m : Nat) : OneMiner C m (fun _ => []) (newNet C times) :=
  ⟨fun i => by simp [newNet], fun i => le_rfl, rfl, fun i _ => rfl, fun i => List.prefix_refl _, fun i j a b _ hb => by simp [newNet] at hb, fun i => .inr rfl⟩

/-- **C157** holds in a network in which one node mines: whatever is submitted where and whoever asks whom for a chain, the transactions of that node are those
it has accepted, each once and in their order; every other node still has all it has accepted pending, and the blocks it has copied hold a first part of the
transactions the miner has accepted. -/
theorem C157_one_miner_partial (C : Crypto Tx Hs) (fuel : Nat) (hm : ∀ lp lh, ∃ k < fuel, C.vp lp k lh = true) (times : Nat → Nat) (host : String → Nat)
    (m : Nat) (ops : List (NetOp Tx)) (hop : ∀ i r t, NetOp.mine i r t ∈ ops → i = m) :
    let net := netServeAll C host fuel (newNet C times) ops
    allTx (net m) = ops.flatMap (acceptedAt m) ∧
      ∀ i, i ≠ m → (net i).current = ops.flatMap (acceptedAt i) ∧ mined (net i).chain <+: ops.flatMap (acceptedAt m) := by
  have h := oneMiner_all C host fuel hm m ops hop (fun _ => []) (newNet C times)
    (oneMiner_new C times m)
  simp only [List.nil_append] at h
  refine ⟨h.miner, fun i hi => ⟨h.pending i hi, (h.copied i).trans ?_⟩⟩
  rw [← h.miner]
  exact List.prefix_append _ _

/-- A history that meets the hypothesis of `C157_one_miner_partial` and in which a chain is adopted: node 0 mines, node 1 copies. -/
example : (∀ i r t, NetOp.mine i r t ∈ ([.submit 1 9, .submit 0 7, .register 1 "a" "", .mine 0 2 0, .consensus 1, .submit 0 8] : List (NetOp Nat)) → i = 0) ∧
    mined (netServeAll (toyPay Nat) (fun _ => 0) 3 (newNet (toyPay Nat) fun i => i)
      [.submit 1 9, .submit 0 7, .register 1 "a" "", .mine 0 2 0, .consensus 1, .submit 0 8] 1).chain = [7, 2] := by
  refine ⟨fun i r t h => ?_, by decide +kernel⟩
  simp at h
  exact h.1

/-- **C125, convergence of chains.** If among `k` nodes that know only each other all chains of the greatest length are the same, and every node reaches every other
in at most as many steps as there are rounds, then all nodes end with that chain. -/
theorem C125_chains_partial (C : Crypto Tx Hs) (host : String → Nat) (net : Net Tx Hs) (hv : ∀ j, validChain C (net j).chain = .ok true) (k : Nat)
    (rounds : List (List Nat)) (hr : ∀ round ∈ rounds, ∀ i < k, i ∈ round) (hk : ∀ i < k, ∀ a ∈ (net i).nodes, host a < k)
    (hc : ∀ i < k, ∀ t < k, ∃ r ≤ rounds.length, Reached host net k r i t) (m : Nat) (hm : m < k)
    (hM : ∀ i < k, (net i).chain.length < (net m).chain.length ∨ (net i).chain = (net m).chain) :
    ∀ i < k, (consensusAll C host net rounds.flatten i).chain = (net m).chain := by
  intro i hi
  have h1 := C125_lengths_partial C host net hv k rounds hr hk hc (net m).chain.length
    (fun i hi => (hM i hi).elim le_of_lt fun h => by rw [h]) ⟨m, hm, rfl⟩ i hi
  obtain ⟨l, hl, h2⟩ := consensusAll_among C host k rounds.flatten net hk i hi
  rcases hM l hl with h | h
  · rw [h2] at h1; omega
  · rw [h2, h]

/-- **C125, one miner.** In a network in which one node mines, whatever was submitted where and whoever asked whom for a chain: if that node has mined a block, and
the first `k` nodes, it being one of them, know only each other and reach each other in at most as many steps as there are rounds, then after these rounds all of
them have the chain of the miner. -/
theorem C125_one_miner_partial (C : Crypto Tx Hs) (fuel : Nat) (hm : ∀ lp lh, ∃ k < fuel, C.vp lp k lh = true) (times : Nat → Nat) (host : String → Nat)
    (m : Nat) (ops : List (NetOp Tx)) (hop : ∀ i r t, NetOp.mine i r t ∈ ops → i = m) (k : Nat) (hmk : m < k) (rounds : List (List Nat))
    (hr : ∀ round ∈ rounds, ∀ i < k, i ∈ round) :
    let net := netServeAll C host fuel (newNet C times) ops
    1 < (net m).chain.length → (∀ i < k, ∀ a ∈ (net i).nodes, host a < k) → (∀ i < k, ∀ t < k, ∃ r ≤ rounds.length, Reached host net k r i t) →
      ∀ i < k, (consensusAll C host net rounds.flatten i).chain = (net m).chain := by
  intro net h1 hk hc
  have h := oneMiner_all C host fuel hm m ops hop (fun _ => []) (newNet C times) (oneMiner_new C times m)
  refine C125_chains_partial C host net (fun j => (validChain_iff C _).2 ⟨h.nonempty j, h.linked j⟩) k rounds hr hk hc m hmk fun i _ => ?_
  rcases lt_or_eq_of_le (h.longest i) with hlt | heq
  · exact .inl hlt
  · rcases h.first i with hp | hone
    · exact .inr (hp.eq_of_length heq)
    · exact absurd h1 (by show ¬ 1 < (netServeAll C host fuel (newNet C times) ops m).chain.length; omega)

/-- Two nodes that know each other, of which the second mines a block, meet the hypotheses of `C125_chains_partial` and `C125_one_miner_partial`. -/
example : let host : String → Nat := fun s => if s = "b" then 1 else 0
    let ops : List (NetOp Nat) := [.register 0 "b" "", .register 1 "a" "", .submit 0 9, .mine 1 2 0]
    let net := netServeAll (toyPay Nat) host 3 (newNet (toyPay Nat) fun i => i) ops
    (∀ i r t, NetOp.mine i r t ∈ ops → i = 1) ∧ (∀ round ∈ [[0, 1]], ∀ i < 2, i ∈ round) ∧ 1 < (net 1).chain.length ∧
      (∀ i < 2, ∀ a ∈ (net i).nodes, host a < 2) ∧ (∀ i < 2, ∀ t < 2, ∃ r ≤ [[0, 1]].length, Reached host net 2 r i t) ∧
      (net 0).chain.length < (net 1).chain.length := by
  intro host ops net
  have n0 : (net 0).nodes = ["b"] := by decide +kernel
  have n1 : (net 1).nodes = ["a"] := by decide +kernel
  refine ⟨fun i r t h => ?_, by decide, by decide +kernel, fun i hi a ha => ?_, fun i hi t ht => ?_, by decide +kernel⟩
  · simp [ops] at h
    exact h.1
  · match i, hi with
    | 0, _ => rw [n0] at ha; simp only [List.mem_singleton] at ha; subst ha; decide
    | 1, _ => rw [n1] at ha; simp only [List.mem_singleton] at ha; subst ha; decide
  · match i, hi, t, ht with
    | 0, _, 0, _ => exact ⟨0, by simp, .here _⟩
    | 1, _, 1, _ => exact ⟨0, by simp, .here _⟩
    | 0, _, 1, _ => exact ⟨1, by simp, .step (j := 1) ⟨by decide, "b", by rw [n0]; simp, rfl⟩ (.here 1)⟩
    | 1, _, 0, _ => exact ⟨1, by simp, .step (j := 0) ⟨by decide, "a", by rw [n1]; simp, rfl⟩ (.here 0)⟩

/-! ### Coins -/

omit [DecidableEq Hs] in
/-- A new node has created no coins. -/
theorem minted_new (me : String) (time : Nat) (one : Hs) : Minted me (⟨[], [⟨1, time, [], 100, one⟩], []⟩ : State Payment Hs) := by
  refine ⟨by simp, rfl, fun b hb => ?_, fun i b hb => by simp at hb⟩
  simp only [List.getElem?_cons_zero, Option.some.injEq] at hb
  subst hb
  rfl

/-- **C158** for a node that asks no peers and to which nobody submits payments from "0": every block but the first creates exactly one coin, for this node, in its
last transaction, and the first none; so the coins of a chain are as many as its blocks less one. -/
theorem C158_coins_partial (C : Crypto Payment Hs) (fuel time : Nat) (me : String) (ops : List (Op Payment Hs)) (hs : ∀ t, .submit t ∈ ops → ¬ t.Creates)
    (hr : ∀ r t, .mine r t ∈ ops → r = ⟨"0", me, 1⟩) (hn : ∀ rs, .resolve rs ∉ ops) : ∃ s0, init C time = .ok s0 ∧
      let chain := (serveAll C fuel s0 ops).chain
      (∀ i b, chain[i]? = some b → b.transactions.filter (·.Creates) = if i = 0 then [] else [⟨"0", me, 1⟩]) ∧
      (∀ i b, chain[i]? = some b → i ≠ 0 → b.transactions.getLast? = some ⟨"0", me, 1⟩) ∧
      (((mined chain).filter (·.Creates)).map (·.amount)).sum = (chain.length : Int) - 1 := by
  refine ⟨_, init_eq C time, ?_⟩
  obtain ⟨h1, -, h3, h4⟩ := minted_all (C := C) fuel me ops hs hr hn _ (minted_new me time C.one)
  generalize (serveAll C fuel (⟨[], [⟨1, time, [], 100, C.one⟩], []⟩ : State Payment Hs) ops).chain = chain at h1 h3 h4
  refine ⟨fun i b hb => ?_, fun i b hb hi => ?_, ?_⟩
  · cases i with
    | zero => rw [if_pos rfl]; exact h3 b hb
    | succ i => rw [if_neg (by omega)]; exact (h4 i b hb).1
  · cases i with
    | zero => exact absurd rfl hi
    | succ i => exact (h4 i b hb).2
  · cases chain with
    | nil => exact absurd rfl h1
    | cons g l =>
      have := minted_sum me l fun b hb => by
        obtain ⟨i, hi, e⟩ := List.mem_iff_getElem.1 hb
        exact (h4 i b (by rw [List.getElem?_cons_succ, List.getElem?_eq_getElem hi, e])).1
      have hg := h3 g rfl
      rw [show mined (g :: l) = g.transactions ++ mined l from rfl, List.filter_append, hg, List.nil_append, this, List.length_cons]
      push_cast
      omega

/-- This meets the hypotheses of `C158_coins_partial`. -/
example : let ops : List (Op Payment Nat) := [.submit ⟨"ann", "bob", 5⟩, .mine ⟨"0", "me", 1⟩ 3, .mine ⟨"0", "me", 1⟩ 4]
    (∀ t, .submit t ∈ ops → ¬ t.Creates) ∧ (∀ r t, .mine r t ∈ ops → r = ⟨"0", "me", 1⟩) ∧ (∀ rs, .resolve rs ∉ ops) ∧
    (serveAll (toyPay Payment) 3 ⟨[], [⟨1, 0, [], 100, 1⟩], []⟩ ops).chain.map (·.transactions) =
      [[], [⟨"ann", "bob", 5⟩, ⟨"0", "me", 1⟩], [⟨"0", "me", 1⟩]] := by
  refine ⟨fun t h => ?_, fun r t h => ?_, fun rs h => ?_, by decide +kernel⟩
  · simp at h; subst h; decide
  · simp at h; rcases h with h | h <;> exact h.1
  · simp at h

/-- **C158** fails, requests: whatever a node has served, one more submission, answered with an index like any other, and one mined block give any account any balance. -/
theorem C158_balance_refuted (C : Crypto Payment Hs) (fuel time : Nat) (hm : ∀ lp lh, ∃ k < fuel, C.vp lp k lh = true) (me : String) (ops : List (Op Payment Hs))
    (a b : String) (hab : a ≠ b) (z : Int) : ∃ s0, init C time = .ok s0 ∧ ∃ x i s1,
      newTransaction (serveAll C fuel s0 ops) ⟨b, a, x⟩ = .ok (i, s1) ∧
      let s := serveAll C fuel s0 (ops ++ [.submit ⟨b, a, x⟩, .mine ⟨"0", me, 1⟩ time])
      validChain C s.chain = .ok true ∧ balance a (mined s.chain) = z := by
  refine ⟨_, init_eq C time, ?_⟩
  generalize hs0 : (⟨[], [⟨1, time, [], 100, C.one⟩], []⟩ : State Payment Hs) = s0
  have h0 : validChain C s0.chain = .ok true := by rw [← hs0]; rfl
  have hv := serveAll_valid C fuel s0 ops h0
  have hne := ((validChain_iff C _).1 hv).1
  generalize hx : z - (balance a (mined (serveAll C fuel s0 ops).chain) + (balance a (serveAll C fuel s0 ops).current + balance a [⟨"0", me, 1⟩])) = x
  obtain ⟨i, hi⟩ := newTransaction_eq (serveAll C fuel s0 ops) hne ⟨b, a, x⟩
  refine ⟨x, i, _, hi, serveAll_valid C fuel s0 _ h0, ?_⟩
  have e : serveAll C fuel s0 (ops ++ [.submit ⟨b, a, x⟩, .mine ⟨"0", me, 1⟩ time]) =
      serve C fuel (serve C fuel (serveAll C fuel s0 ops) (.submit ⟨b, a, x⟩)) (.mine ⟨"0", me, 1⟩ time) := by simp [serveAll]
  rw [e, serve_submit C fuel _ hne]
  obtain ⟨bl, f, ft, -⟩ := serve_mine C fuel hm ⟨(serveAll C fuel s0 ops).current ++ [⟨b, a, x⟩], (serveAll C fuel s0 ops).chain,
    (serveAll C fuel s0 ops).nodes⟩ hne ⟨"0", me, 1⟩ time
  rw [f]
  have hmn : mined ((serveAll C fuel s0 ops).chain ++ [bl]) =
      mined (serveAll C fuel s0 ops).chain ++ ((serveAll C fuel s0 ops).current ++ ([⟨b, a, x⟩] ++ [⟨"0", me, 1⟩])) := by simp [mined, ft]
  show balance a (mined ((serveAll C fuel s0 ops).chain ++ [bl])) = z
  rw [hmn, balance_append, balance_append, balance_append]
  have hbx : balance a [⟨b, a, x⟩] = x := by simp [balance, hab.symm]
  rw [hbx]
  omega

/-- **C158** fails, consensus: for every list of lists of payments there is a chain with exactly these payments in its blocks after the first, with indices that
count up, and every node whose chain is not longer than the list takes it over. -/
theorem C158_consensus_refuted (C : Crypto Payment Hs) (hm : ∀ lp lh, ∃ k, C.vp lp k lh = true) (payments : List (List Payment)) :
    ∃ chain : List (Block Payment Hs), chain.map (·.transactions) = [] :: payments ∧ Counted chain ∧
      ∀ s : State Payment Hs, s.chain.length ≤ payments.length → resolve C s [.answer 200 chain.length chain] = .ok (true, { s with chain := chain }) := by
  obtain ⟨l, h1, h2, h3⟩ : ∃ l : List (Block Payment Hs), l.map (·.transactions) = payments ∧ Linked C (⟨1, 0, [], 100, C.one⟩ :: l) ∧
      Counted ((⟨1, 0, [], 100, C.one⟩ : Block Payment Hs) :: l) := by
    induction payments using List.reverseRecOn with
    | nil =>
      refine ⟨[], rfl, fun i a b _ hb => by simp at hb, fun i b hb => ?_⟩
      obtain ⟨hi, hb⟩ := List.getElem?_eq_some_iff.1 hb
      simp only [List.length_singleton, Nat.lt_one_iff] at hi
      subst hi
      simp only [List.getElem_cons_zero] at hb
      rw [← hb]
    | append_singleton ps q ih =>
      obtain ⟨l, h1, h2, h3⟩ := ih
      obtain ⟨last, hl⟩ : ∃ last, ((⟨1, 0, [], 100, C.one⟩ : Block Payment Hs) :: l).getLast? = some last :=
        ⟨_, List.getLast?_eq_getLast_of_ne_nil (by simp)⟩
      obtain ⟨k, hk⟩ := hm last.proof (C.hash last)
      refine ⟨l ++ [⟨l.length + 2, 0, q, k, C.hash last⟩], by simp [h1], ?_, ?_⟩
      · exact linked_snoc C _ last ⟨l.length + 2, 0, q, k, C.hash last⟩ h2 hl rfl hk
      · exact counted_snoc _ ⟨l.length + 2, 0, q, k, C.hash last⟩ h3 (by simp)
  refine ⟨⟨1, 0, [], 100, C.one⟩ :: l, by simp [h1], h3, fun s hs => resolve_one C s _ h2 ?_⟩
  have : l.length = payments.length := by rw [← h1, List.length_map]
  simp only [List.length_cons]
  omega

/-- This meets the hypotheses of `C158_balance_refuted` and `C158_consensus_refuted`. -/
example : (∀ lp lh, ∃ k < 3, (toyPay Payment).vp lp k lh = true) ∧ "ann" ≠ "bob" ∧
    (⟨[], [⟨1, 0, [], 100, 1⟩], []⟩ : State Payment Nat).chain.length ≤ [[(⟨"0", "ann", 1000⟩ : Payment)]].length :=
  ⟨toyPay_mines Payment, by decide, by decide⟩

/-- **C158** fails, overlapping requests: of two `/mine` requests that are in progress at the same time one leaves a block that creates two coins and the other
one that creates none. -/
theorem C158_overlap_refuted : (concAll (toyPay Payment) 3 ⟨⟨[], [⟨1, 0, [], 100, 1⟩], []⟩, fun _ => .start⟩
    [.step 0 ⟨"0", "me", 1⟩ 5, .step 1 ⟨"0", "me", 1⟩ 6, .step 0 ⟨"0", "me", 1⟩ 5, .step 1 ⟨"0", "me", 1⟩ 6, .step 0 ⟨"0", "me", 1⟩ 5,
      .step 1 ⟨"0", "me", 1⟩ 6]).shared.chain.map (·.transactions) = [[], [⟨"0", "me", 1⟩, ⟨"0", "me", 1⟩], []] := by decide +kernel

end Verif.Props
