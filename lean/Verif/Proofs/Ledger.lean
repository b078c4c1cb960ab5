import Verif.Proofs.Blockchain
import Verif.Spec.Ledger
/-! # Lemmas for C157 and C158 -/

namespace Verif.Chain
open Verif.Spec

variable {Tx Hs : Type} [DecidableEq Hs] (C : Crypto Tx Hs)

theorem serve_mine (fuel : Nat) (hm : ∀ lp lh, ∃ k < fuel, C.vp lp k lh = true) (s : State Tx Hs) (hs : s.chain ≠ []) (reward : Tx) (time : Nat) :
    ∃ b, serve C fuel s (.mine reward time) = ⟨[], s.chain ++ [b], s.nodes⟩ ∧ b.transactions = s.current ++ [reward] ∧
      (Linked C s.chain → Linked C (s.chain ++ [b])) := by
  obtain ⟨r, h⟩ := mine_returns C fuel hm s hs reward time
  obtain ⟨last, h1, h2, h3, h4, h5, h6, h7, h8⟩ := mine_ok C fuel s reward time r.1 r.2 h
  refine ⟨r.1, ?_, h5, fun hl => linked_snoc C _ last _ hl h1 h2 h3⟩
  have e : serve C fuel s (.mine reward time) = r.2 := by simp [serve, h]
  rw [e]
  cases hr : r.2 with
  | mk a b c => simp only [hr] at h6 h7 h8; simp only [h6, h7, h8]

omit [DecidableEq Hs] in
theorem newTransaction_eq (s : State Tx Hs) (hs : s.chain ≠ []) (t : Tx) : ∃ i, newTransaction s t = .ok (i, ⟨s.current ++ [t], s.chain, s.nodes⟩) := by
  unfold newTransaction
  rw [List.getLast?_eq_getLast_of_ne_nil hs]
  exact ⟨_, rfl⟩

theorem serve_submit (fuel : Nat) (s : State Tx Hs) (hs : s.chain ≠ []) (t : Tx) :
    serve C fuel s (.submit t) = ⟨s.current ++ [t], s.chain, s.nodes⟩ := by
  obtain ⟨i, h⟩ := newTransaction_eq s hs t
  simp only [serve, h]

/-- What `consensus` does to a network: nothing, or one node takes over the longer chain of another. -/
theorem consensus_cases (host : String → Nat) (net : Net Tx Hs) (i : Nat) : consensus C host net i = net ∨
    ∃ j, (∃ a ∈ (net i).nodes, host a = j) ∧ (net i).chain.length < (net j).chain.length ∧ consensus C host net i = Function.update net i { net i with chain := (net j).chain } := by
  unfold consensus
  cases h : resolve C (net i) ((net i).nodes.map fun a => fullChain (net (host a))) with
  | error e => exact .inl rfl
  | ok r =>
    obtain ⟨h1, h2, h3⟩ := resolve_ok C _ _ r.1 r.2 h
    rcases h3 with ⟨-, h3⟩ | ⟨-, l, h4, h5, -⟩
    · left
      show Function.update net i r.2 = net
      rw [h3, Function.update_eq_self]
    · obtain ⟨a, hmem, ha⟩ := List.mem_map.1 h4
      simp only [fullChain, Resp.answer.injEq, true_and] at ha
      refine .inr ⟨host a, ⟨a, hmem, rfl⟩, by omega, ?_⟩
      show Function.update net i r.2 = _
      congr 1
      rw [ha.2]
      cases hr : r.2 with
      | mk x y z => simp only [hr] at h1 h2; simp only [h1, h2]

theorem resolve_one (s : State Tx Hs) (c : List (Block Tx Hs)) (hc : Linked C c) (hl : s.chain.length < c.length) :
    resolve C s [.answer 200 c.length c] = .ok (true, { s with chain := c }) := by
  have hne : c ≠ [] := by rintro rfl; simp at hl
  have hv : validChain C c = .ok true := (validChain_iff C c).2 ⟨hne, hc⟩
  have : (s.chain.length : Int) < c.length := by exact_mod_cast hl
  cases c with
  | nil => exact absurd rfl hne
  | cons a l => simp only [resolve, resolveLoop, if_true, if_pos this, hv, bind, Except.bind]

/-- Without consensus, the transactions of a node are those it had and those it accepted. -/
theorem serveAll_allTx (fuel : Nat) (hm : ∀ lp lh, ∃ k < fuel, C.vp lp k lh = true) (ops : List (Op Tx Hs)) (ho : ∀ rs, Op.resolve rs ∉ ops) :
    ∀ s : State Tx Hs, s.chain ≠ [] → allTx (serveAll C fuel s ops) = allTx s ++ ops.flatMap added := by
  induction ops with
  | nil => intro s _; simp [serveAll]
  | cons op ops ih =>
    intro s hs
    obtain ⟨h1, h2⟩ := serve_allTx C fuel hm s hs op (fun rs e => ho rs (by simp [e]))
    have h3 := ih (fun rs h => ho rs (List.mem_cons_of_mem _ h)) _ h2
    rw [show serveAll C fuel s (op :: ops) = serveAll C fuel (serve C fuel s op) ops from rfl, h3, h1]
    simp

/-- The invariant of a network in which one node mines. -/
structure OneMiner (m : Nat) (acc : Nat → List Tx) (net : Net Tx Hs) : Prop where
  nonempty : ∀ i, (net i).chain ≠ []
  longest : ∀ i, (net i).chain.length ≤ (net m).chain.length
  miner : allTx (net m) = acc m
  pending : ∀ i, i ≠ m → (net i).current = acc i
  copied : ∀ i, mined (net i).chain <+: mined (net m).chain
  linked : ∀ i, Linked C (net i).chain
  first : ∀ i, (net i).chain <+: (net m).chain ∨ (net i).chain.length = 1

theorem oneMiner_step (host : String → Nat) (fuel : Nat) (hm : ∀ lp lh, ∃ k < fuel, C.vp lp k lh = true) (m : Nat) (acc : Nat → List Tx)
    (net : Net Tx Hs) (op : NetOp Tx) (hop : ∀ i r t, op = .mine i r t → i = m) (h : OneMiner C m acc net) :
    OneMiner C m (fun i => acc i ++ acceptedAt i op) (netServe C host fuel net op) := by
  obtain ⟨h1, h2, h3, h4, h5, h6, h7⟩ := h
  -- the chains are the same and only the pending transactions of one node change
  have same : ∀ (i : Nat) (s : State Tx Hs), s.chain = (net i).chain → s.current = (net i).current ++ acceptedAt i op →
      (∀ j, j ≠ i → acceptedAt j op = []) → OneMiner C m (fun i => acc i ++ acceptedAt i op) (Function.update net i s) := by
    intro i s hc hp hj
    have hch : ∀ k, (Function.update net i s k).chain = (net k).chain := fun k => by
      by_cases hk : k = i
      · subst hk; rw [Function.update_self, hc]
      · rw [Function.update_of_ne hk]
    have hcu : ∀ k, (Function.update net i s k).current = (net k).current ++ acceptedAt k op := fun k => by
      by_cases hk : k = i
      · subst hk; rw [Function.update_self, hp]
      · rw [Function.update_of_ne hk, hj k hk, List.append_nil]
    refine ⟨fun k => by rw [hch]; exact h1 k, fun k => by rw [hch, hch]; exact h2 k, ?_, fun k hk => by rw [hcu, h4 k hk],
      fun k => by rw [hch, hch]; exact h5 k, fun k => by rw [hch]; exact h6 k, fun k => by rw [hch, hch]; exact h7 k⟩
    simp only [allTx, hch, hcu]
    rw [← List.append_assoc]
    show allTx (net m) ++ _ = _
    rw [h3]
  cases op with
  | submit i t =>
    show OneMiner C m _ (Function.update net i (serve C fuel (net i) (.submit t)))
    rw [serve_submit C fuel (net i) (h1 i) t]
    exact same i _ rfl (by simp [acceptedAt]) (fun j hj => by simp [acceptedAt, Ne.symm hj])
  | register i a b =>
    refine same i _ ?_ ?_ (fun j _ => rfl)
    · cases hr : registerNode (net i) a b with
      | error e => simp [serve, hr]
      | ok r => simp only [serve, hr]; exact (registerNode_ok _ _ _ _ hr).1
    · cases hr : registerNode (net i) a b with
      | error e => simp [serve, hr, acceptedAt]
      | ok r => simp only [serve, hr]; rw [(registerNode_ok _ _ _ _ hr).2]; simp [acceptedAt]
  | mine i r t =>
    have him := hop i r t rfl
    subst him
    show OneMiner C i _ (Function.update net i (serve C fuel (net i) (.mine r t)))
    obtain ⟨b, hb, hbt, hbl⟩ := serve_mine C fuel hm (net i) (h1 i) r t
    rw [hb]
    have hmn : mined ((net i).chain ++ [b]) = mined (net i).chain ++ ((net i).current ++ [r]) := by simp [mined, hbt]
    refine ⟨fun k => ?_, fun k => ?_, ?_, fun k hk => ?_, fun k => ?_, fun k => ?_, fun k => ?_⟩
    · by_cases hk : k = i
      · subst hk; simp [Function.update_self]
      · rw [Function.update_of_ne hk]; exact h1 k
    · by_cases hk : k = i
      · subst hk; exact le_rfl
      · rw [Function.update_of_ne hk, Function.update_self]
        have := h2 k
        simp only [List.length_append, List.length_singleton]
        omega
    · rw [Function.update_self]
      show mined ((net i).chain ++ [b]) ++ [] = _
      rw [hmn, ← h3]
      simp [allTx, mined, acceptedAt]
    · rw [Function.update_of_ne hk, h4 k hk]
      simp [acceptedAt, Ne.symm hk]
    · by_cases hk : k = i
      · subst hk; exact List.prefix_refl _
      · rw [Function.update_of_ne hk, Function.update_self]
        show _ <+: mined ((net i).chain ++ [b])
        rw [hmn]
        exact (h5 k).trans (List.prefix_append _ _)
    · by_cases hk : k = i
      · subst hk; rw [Function.update_self]; exact hbl (h6 k)
      · rw [Function.update_of_ne hk]; exact h6 k
    · by_cases hk : k = i
      · subst hk; exact .inl (List.prefix_refl _)
      · rw [Function.update_of_ne hk, Function.update_self]
        exact (h7 k).imp (fun h => h.trans (List.prefix_append _ _)) id
  | consensus i =>
    show OneMiner C m _ (consensus C host net i)
    have e : (fun k => acc k ++ acceptedAt k (NetOp.consensus (Tx := Tx) i)) = acc := by funext k; simp [acceptedAt]
    rw [e]
    rcases consensus_cases C host net i with h | ⟨j, -, hj, h⟩
    · rw [h]; exact ⟨h1, h2, h3, h4, h5, h6, h7⟩
    · rw [h]
      have him : i ≠ m := by rintro rfl; have := h2 j; omega
      refine ⟨fun k => ?_, fun k => ?_, ?_, fun k hk => ?_, fun k => ?_, fun k => ?_, fun k => ?_⟩
      · by_cases hk : k = i
        · subst hk; rw [Function.update_self]; exact h1 j
        · rw [Function.update_of_ne hk]; exact h1 k
      · rw [Function.update_of_ne him.symm]
        by_cases hk : k = i
        · subst hk; rw [Function.update_self]; exact h2 j
        · rw [Function.update_of_ne hk]; exact h2 k
      · rw [Function.update_of_ne him.symm, h3]
      · by_cases hki : k = i
        · subst hki; rw [Function.update_self]; exact h4 k hk
        · rw [Function.update_of_ne hki]; exact h4 k hk
      · rw [Function.update_of_ne him.symm]
        by_cases hk : k = i
        · subst hk; rw [Function.update_self]; exact h5 j
        · rw [Function.update_of_ne hk]; exact h5 k
      · by_cases hk : k = i
        · subst hk; rw [Function.update_self]; exact h6 j
        · rw [Function.update_of_ne hk]; exact h6 k
      · rw [Function.update_of_ne him.symm]
        by_cases hk : k = i
        · subst hk; rw [Function.update_self]; exact h7 j
        · rw [Function.update_of_ne hk]; exact h7 k

/-- Nodes that know only each other keep to the chains they had. -/
theorem consensusAll_among (host : String → Nat) (k : Nat) (order : List Nat) : ∀ net : Net Tx Hs, (∀ i < k, ∀ a ∈ (net i).nodes, host a < k) →
    ∀ i < k, ∃ l < k, (consensusAll C host net order i).chain = (net l).chain := by
  induction order with
  | nil => intro net _ i hi; exact ⟨i, hi, rfl⟩
  | cons x order ih =>
    intro net hk i hi
    have e : consensusAll C host net (x :: order) = consensusAll C host (consensus C host net x) order := rfl
    rw [e]
    rcases consensus_cases C host net x with h | ⟨j, ⟨a, ha, hj⟩, -, h⟩
    · rw [h]; exact ih net hk i hi
    · have hn : ∀ y, (consensus C host net x y).nodes = (net y).nodes := fun y => by
        rw [h]
        by_cases hy : y = x
        · subst hy; rw [Function.update_self]
        · rw [Function.update_of_ne hy]
      obtain ⟨l, hl, hl'⟩ := ih (consensus C host net x) (fun i hi a ha => hk i hi a (by rw [hn] at ha; exact ha)) i hi
      rw [hl', h]
      by_cases hlx : l = x
      · subst hlx
        rw [Function.update_self]
        exact ⟨j, by rw [← hj]; exact hk l hl a ha, rfl⟩
      · rw [Function.update_of_ne hlx]
        exact ⟨l, hl, rfl⟩

theorem oneMiner_all (host : String → Nat) (fuel : Nat) (hm : ∀ lp lh, ∃ k < fuel, C.vp lp k lh = true) (m : Nat) (ops : List (NetOp Tx))
    (hop : ∀ i r t, NetOp.mine i r t ∈ ops → i = m) : ∀ (acc : Nat → List Tx) (net : Net Tx Hs), OneMiner C m acc net →
    OneMiner C m (fun i => acc i ++ ops.flatMap (acceptedAt i)) (netServeAll C host fuel net ops) := by
  induction ops with
  | nil => intro acc net h; simpa [netServeAll] using h
  | cons op ops ih =>
    intro acc net h
    have h1 := oneMiner_step C host fuel hm m acc net op (fun i r t e => hop i r t (by simp [e])) h
    have h2 := ih (fun i r t hmem => hop i r t (List.mem_cons_of_mem _ hmem)) _ _ h1
    simpa [netServeAll, List.flatMap_cons, List.append_assoc] using h2

/-- The invariant of a node to which nobody submits payments that create coins. -/
structure Minted (me : String) (s : State Payment Hs) : Prop where
  nonempty : s.chain ≠ []
  pending : s.current.filter (·.Creates) = []
  first : ∀ b, s.chain[0]? = some b → b.transactions.filter (·.Creates) = []
  later : ∀ i b, s.chain[i + 1]? = some b →
    b.transactions.filter (·.Creates) = [⟨"0", me, 1⟩] ∧ b.transactions.getLast? = some ⟨"0", me, 1⟩

theorem minted_step {C : Crypto Payment Hs} (fuel : Nat) (me : String) (s : State Payment Hs) (op : Op Payment Hs)
    (hs : ∀ t, op = .submit t → ¬ t.Creates) (hr : ∀ r t, op = .mine r t → r = ⟨"0", me, 1⟩) (hn : ∀ rs, op ≠ .resolve rs)
    (h : Minted me s) : Minted me (serve C fuel s op) := by
  obtain ⟨h1, h2, h3, h4⟩ := h
  cases op with
  | submit t =>
    rw [serve_submit C fuel s h1 t]
    refine ⟨h1, ?_, h3, h4⟩
    have := hs t rfl
    simp [List.filter_append, h2, this]
  | register a b =>
    cases hr : registerNode s a b with
    | error e => simp only [serve, hr]; exact ⟨h1, h2, h3, h4⟩
    | ok r =>
      simp only [serve, hr]
      obtain ⟨e1, e2⟩ := registerNode_ok _ _ _ _ hr
      refine ⟨by rw [e1]; exact h1, by rw [e2]; exact h2, by rw [e1]; exact h3, by rw [e1]; exact h4⟩
  | mine r t =>
    have hr := hr r t rfl
    subst hr
    cases hmn : mine C fuel s ⟨"0", me, 1⟩ t with
    | error e => simp only [serve, hmn]; exact ⟨h1, h2, h3, h4⟩
    | ok r =>
      obtain ⟨last, -, -, -, -, e4, e5, e6, -⟩ := mine_ok C fuel s _ t r.1 r.2 hmn
      simp only [serve, hmn]
      refine ⟨by rw [e5]; simp, by rw [e6]; rfl, fun b hb => h3 b ?_, fun i b hb => ?_⟩
      · rw [e5, List.getElem?_append_left (List.length_pos_of_ne_nil h1)] at hb
        exact hb
      · rw [e5] at hb
        by_cases hi : i + 1 < s.chain.length
        · rw [List.getElem?_append_left hi] at hb
          exact h4 i b hb
        · rw [List.getElem?_append_right (by omega)] at hb
          obtain ⟨hlt, hb⟩ := List.getElem?_eq_some_iff.1 hb
          simp only [List.length_singleton, Nat.lt_one_iff] at hlt
          simp only [hlt, List.getElem_cons_zero] at hb
          subst hb
          rw [e4]
          refine ⟨?_, by simp⟩
          rw [List.filter_append, h2]
          simp [Payment.Creates]
  | resolve rs => exact absurd rfl (hn rs)

theorem minted_all {C : Crypto Payment Hs} (fuel : Nat) (me : String) (ops : List (Op Payment Hs))
    (hs : ∀ t, .submit t ∈ ops → ¬ t.Creates) (hr : ∀ r t, .mine r t ∈ ops → r = ⟨"0", me, 1⟩) (hn : ∀ rs, .resolve rs ∉ ops) :
    ∀ s : State Payment Hs, Minted me s → Minted me (serveAll C fuel s ops) := by
  induction ops with
  | nil => intro s h; exact h
  | cons op ops ih =>
    intro s h
    exact ih (fun t h => hs t (List.mem_cons_of_mem _ h)) (fun r t h => hr r t (List.mem_cons_of_mem _ h)) (fun rs h => hn rs (List.mem_cons_of_mem _ h)) _
      (minted_step fuel me s op (fun t e => hs t (by simp [e])) (fun r t e => hr r t (by simp [e])) (fun rs e => hn rs (by simp [e])) h)

omit [DecidableEq Hs] in
/-- The coins created by the blocks of a chain after the first. -/
theorem minted_sum (me : String) : ∀ l : List (Block Payment Hs),
    (∀ b ∈ l, b.transactions.filter (·.Creates) = [⟨"0", me, 1⟩]) → (((mined l).filter (·.Creates)).map (·.amount)).sum = (l.length : Int) := by
  intro l
  induction l with
  | nil => intro _; rfl
  | cons b l ih =>
    intro h
    have e : mined (b :: l) = b.transactions ++ mined l := rfl
    rw [e, List.filter_append, h b (by simp), List.map_append, List.sum_append, ih (fun b hb => h b (List.mem_cons_of_mem _ hb))]
    simp only [List.map_cons, List.map_nil, List.sum_singleton, List.length_cons, Nat.cast_add, Nat.cast_one]
    omega

theorem balance_append (a : String) (l l' : List Payment) : balance a (l ++ l') = balance a l + balance a l' := by
  simp [balance]

end Verif.Chain
