import Verif.Model.BlockchainNet
import Verif.Props.Blockchain
/-!
# C124: registered nodes and request bodies; C125: consensus in a network
-/

namespace Verif.Props
open Verif.Chain Verif.Spec

variable {Tx Hs : Type} [DecidableEq Hs]

/-- The address a parsed URL is registered under: its network location, or else its path, if one of them is not empty. -/
def addressOf (u : String × String) : Option String := if u.1 ≠ "" then some u.1 else if u.2 ≠ "" then some u.2 else none

omit [DecidableEq Hs] in
/-- What registering one address does. -/
theorem registerNode_spec (s : State Tx Hs) (u : String × String) (hn : s.nodes.Nodup) :
    (addressOf u = none ∧ registerNode s u.1 u.2 = .error .valueError) ∨
      ∃ a s', addressOf u = some a ∧ registerNode s u.1 u.2 = .ok s' ∧ s'.chain = s.chain ∧ s'.current = s.current ∧ s'.nodes.Nodup ∧
        ∀ n, n ∈ s'.nodes ↔ n ∈ s.nodes ∨ n = a := by
  have key : ∀ a : String, (if a ∈ s.nodes then s.nodes else a :: s.nodes).Nodup ∧
      ∀ n, n ∈ (if a ∈ s.nodes then s.nodes else a :: s.nodes) ↔ n ∈ s.nodes ∨ n = a := by
    intro a
    by_cases h : a ∈ s.nodes
    · rw [if_pos h]
      refine ⟨hn, fun n => ⟨Or.inl, ?_⟩⟩
      rintro (h' | rfl)
      · exact h'
      · exact h
    · rw [if_neg h]
      refine ⟨List.nodup_cons.mpr ⟨h, hn⟩, fun n => ?_⟩
      rw [List.mem_cons, or_comm]
  unfold addressOf registerNode
  by_cases h1 : u.1 ≠ ""
  · right
    rw [if_pos h1, if_pos h1]
    exact ⟨_, _, rfl, rfl, rfl, rfl, key u.1⟩
  · rw [if_neg h1, if_neg h1]
    by_cases h2 : u.2 ≠ ""
    · right
      rw [if_pos h2, if_pos h2]
      exact ⟨_, _, rfl, rfl, rfl, rfl, key u.2⟩
    · left
      rw [if_neg h2, if_neg h2]
      exact ⟨rfl, rfl⟩

/-- **C124.** After any history of requests, the nodes a new node knows are exactly those registered, each once: no submission, mining or
consensus adds or removes one. -/
theorem C124_nodes (C : Crypto Tx Hs) (fuel time : Nat) (ops : List (Op Tx Hs)) : ∃ s0, init C time = .ok s0 ∧
    (serveAll C fuel s0 ops).nodes.Nodup ∧
    ∀ n, n ∈ (serveAll C fuel s0 ops).nodes ↔ ∃ netloc path, Op.register netloc path ∈ ops ∧ addressOf (netloc, path) = some n := by
  refine ⟨_, init_eq C time, ?_⟩
  have step : ∀ (s : State Tx Hs) (op : Op Tx Hs), s.nodes.Nodup → (serve C fuel s op).nodes.Nodup ∧
      ∀ n, n ∈ (serve C fuel s op).nodes ↔ n ∈ s.nodes ∨ ∃ netloc path, op = .register netloc path ∧ addressOf (netloc, path) = some n := by
    intro s op hn
    have same : ∀ s' : State Tx Hs, (∀ netloc path, op ≠ .register netloc path) → s'.nodes = s.nodes → s'.nodes.Nodup ∧
        ∀ n, n ∈ s'.nodes ↔ n ∈ s.nodes ∨ ∃ netloc path, op = .register netloc path ∧ addressOf (netloc, path) = some n := by
      intro s' h e
      rw [e]
      refine ⟨hn, fun n => ⟨Or.inl, ?_⟩⟩
      rintro (h' | ⟨a, b, e, -⟩)
      · exact h'
      · exact absurd e (h a b)
    cases op with
    | submit t =>
      refine same _ (by simp) ?_
      unfold serve newTransaction
      cases s.chain.getLast? <;> rfl
    | mine reward t =>
      refine same _ (by simp) ?_
      unfold serve
      cases hm : mine C fuel s reward t with
      | error e => simp only [hm]
      | ok r =>
        simp only [hm]
        obtain ⟨-, -, -, -, -, -, -, -, e⟩ := mine_ok C fuel s reward t r.1 r.2 hm
        exact e
    | register a b =>
      unfold serve
      rcases registerNode_spec s (a, b) hn with ⟨h1, h2⟩ | ⟨c, s', h1, h2, -, -, h3, h4⟩
      · simp only [h2]
        refine ⟨hn, fun n => ⟨Or.inl, ?_⟩⟩
        rintro (h' | ⟨x, y, e, h'⟩)
        · exact h'
        · simp only [Op.register.injEq] at e
          obtain ⟨rfl, rfl⟩ := e
          rw [h1] at h'; simp at h'
      · simp only [h2]
        refine ⟨h3, fun n => ?_⟩
        rw [h4]
        refine or_congr_right ⟨fun e => ⟨a, b, rfl, by rw [e]; exact h1⟩, ?_⟩
        rintro ⟨x, y, e, h'⟩
        simp only [Op.register.injEq] at e
        obtain ⟨rfl, rfl⟩ := e
        rw [h1] at h'
        simpa using h'.symm
    | resolve rs =>
      refine same _ (by simp) ?_
      unfold serve
      cases hr : resolve C s rs with
      | error e => simp only [hr]
      | ok r => simp only [hr]; exact (resolve_ok C s rs r.1 r.2 hr).2.1
  have key : ∀ (ops : List (Op Tx Hs)) (s : State Tx Hs), s.nodes.Nodup → (serveAll C fuel s ops).nodes.Nodup ∧
      ∀ n, n ∈ (serveAll C fuel s ops).nodes ↔ n ∈ s.nodes ∨ ∃ netloc path, Op.register netloc path ∈ ops ∧ addressOf (netloc, path) = some n := by
    intro ops
    induction ops with
    | nil => intro s hn; exact ⟨hn, fun n => by simp [serveAll]⟩
    | cons op ops ih =>
      intro s hn
      obtain ⟨h1, h2⟩ := step s op hn
      obtain ⟨h3, h4⟩ := ih _ h1
      refine ⟨h3, fun n => ?_⟩
      show n ∈ (serveAll C fuel (serve C fuel s op) ops).nodes ↔ _
      rw [h4, h2]
      constructor
      · rintro ((h | ⟨a, b, rfl, h⟩) | ⟨a, b, h, h'⟩)
        · exact Or.inl h
        · exact Or.inr ⟨a, b, by simp, h⟩
        · exact Or.inr ⟨a, b, by simp [h], h'⟩
      · rintro (h | ⟨a, b, h, h'⟩)
        · exact Or.inl (Or.inl h)
        · rcases List.mem_cons.mp h with rfl | h
          · exact Or.inl (Or.inr ⟨a, b, rfl, h'⟩)
          · exact Or.inr ⟨a, b, h, h'⟩
  obtain ⟨h1, h2⟩ := key ops ⟨[], [⟨1, time, [], 100, C.one⟩], []⟩ List.nodup_nil
  exact ⟨h1, fun n => by rw [h2]; simp⟩

example : (serveAll toy 3 toy0 [.register "" "h:1", .submit 7, .register "g" "/", .register "" "h:1", .mine 1 5, .register "" ""]).nodes =
    ["g", "h:1"] := by decide

omit [DecidableEq Hs] in
/-- **C124, batches.** `/nodes/register` with a list of addresses answers 201 and registers them all if all are valid; otherwise it raises
`ValueError`, having registered exactly those before the first invalid one.  Without a list it answers 400 and changes nothing. -/
theorem C124_batch_partial (parse : String → String × String) (s : State Tx Hs) (hn : s.nodes.Nodup) (good rest : List String)
    (hg : ∀ a ∈ good, (addressOf (parse a)).isSome) (hr : ∀ a ∈ rest.head?, addressOf (parse a) = none) :
    registerHandler parse s none = (.ok 400, s) ∧
    ∃ s', registerHandler parse s (some (good ++ rest)) = (if rest = [] then .ok 201 else .error .valueError, s') ∧
      s'.chain = s.chain ∧ s'.current = s.current ∧ s'.nodes.Nodup ∧
      ∀ n, n ∈ s'.nodes ↔ n ∈ s.nodes ∨ ∃ a ∈ good, addressOf (parse a) = some n := by
  refine ⟨rfl, ?_⟩
  have key : ∀ (good : List String) (s : State Tx Hs), s.nodes.Nodup → (∀ a ∈ good, (addressOf (parse a)).isSome) →
      ∃ s', registerLoop parse s (good ++ rest) = (if rest = [] then .ok () else .error .valueError, s') ∧
      s'.chain = s.chain ∧ s'.current = s.current ∧ s'.nodes.Nodup ∧
      ∀ n, n ∈ s'.nodes ↔ n ∈ s.nodes ∨ ∃ a ∈ good, addressOf (parse a) = some n := by
    intro good
    induction good with
    | nil =>
      intro s hn _
      refine ⟨s, ?_, rfl, rfl, hn, fun n => by simp⟩
      cases rest with
      | nil => rfl
      | cons a rest =>
        have h := hr a (by simp)
        rcases registerNode_spec s (parse a) hn with ⟨-, h2⟩ | ⟨c, s', h1, -⟩
        · simp only [List.nil_append, registerLoop, h2, if_neg (List.cons_ne_nil a rest)]
        · rw [h] at h1; simp at h1
    | cons a good ih =>
      intro s hn hg
      rcases registerNode_spec s (parse a) hn with ⟨h1, -⟩ | ⟨c, s1, h1, h2, h3, h4, h5, h6⟩
      · have := hg a (by simp)
        rw [h1] at this; simp at this
      · obtain ⟨s', e, e1, e2, e3, e4⟩ := ih s1 h5 fun b hb => hg b (by simp [hb])
        refine ⟨s', ?_, e1.trans h3, e2.trans h4, e3, fun n => ?_⟩
        · rw [List.cons_append, registerLoop, h2]; exact e
        · rw [e4, h6]
          constructor
          · rintro ((h | rfl) | ⟨b, hb, h⟩)
            · exact Or.inl h
            · exact Or.inr ⟨a, by simp, h1⟩
            · exact Or.inr ⟨b, by simp [hb], h⟩
          · rintro (h | ⟨b, hb, h⟩)
            · exact Or.inl (Or.inl h)
            · rcases List.mem_cons.mp hb with rfl | hb
              · rw [h1] at h
                exact Or.inl (Or.inr (by simpa using h.symm))
              · exact Or.inr ⟨b, hb, h⟩
  obtain ⟨s', e, h⟩ := key good s hn hg
  refine ⟨s', ?_, h⟩
  unfold registerHandler
  simp only [e]
  by_cases hr : rest = []
  · simp [hr]
  · simp [hr]

example : ∃ s', registerHandler (fun a => ("", a)) toy0 (some (["h:1", "h:3", "h:1"] ++ ["", "h:2"])) = (.error .valueError, s') ∧ s'.nodes.Nodup ∧
    ∀ n, n ∈ s'.nodes ↔ n = "h:1" ∨ n = "h:3" := by
  obtain ⟨-, s', h1, -, -, h2, h3⟩ := C124_batch_partial (fun a => ("", a)) toy0 List.nodup_nil ["h:1", "h:3", "h:1"] ["", "h:2"] (by decide) (by decide)
  refine ⟨s', h1, h2, fun n => ?_⟩
  rw [h3]
  have a1 : addressOf ("", "h:1") = some "h:1" := by decide
  have a3 : addressOf ("", "h:3") = some "h:3" := by decide
  simp only [toy0, List.not_mem_nil, false_or, List.mem_cons, or_false]
  constructor
  · rintro ⟨a, rfl | rfl | rfl, h⟩ <;> simp_all
  · rintro (rfl | rfl)
    exacts [⟨_, .inl rfl, a1⟩, ⟨_, .inr (.inl rfl), a3⟩]

/-- **C124 is false** of batches with an invalid address: the request fails but part of it has been carried out. -/
theorem C124_batch_refuted : (registerHandler (fun a => ("", a)) toy0 (some ["h:1", "", "h:2"])).1 = .error .valueError ∧
    (registerHandler (fun a => ("", a)) toy0 (some ["h:1", "", "h:2"])).2.nodes = ["h:1"] ∧ toy0.nodes = [] := ⟨rfl, rfl, rfl⟩

omit [DecidableEq Hs] in
/-- **C124, request bodies.** `/transactions/new` on a node with a chain: with all three fields it answers 201 and adds exactly that transaction
to the pending ones; with one missing it answers 400 and changes nothing; without a body it raises and changes nothing. -/
theorem C124_bodies {V : Type} (s : State (V × V × V) Hs) (last : Block (V × V × V) Hs) (hl : s.chain.getLast? = some last)
    (values : List (String × V)) :
    (∀ a b c, values.lookup "sender" = some a → values.lookup "recipient" = some b → values.lookup "amount" = some c →
      submitHandler s (some values) = (.ok (201, some (last.index + 1)), { s with current := s.current ++ [(a, b, c)] })) ∧
    ((∃ k ∈ ["sender", "recipient", "amount"], values.lookup k = none) → submitHandler s (some values) = (.ok (400, none), s)) ∧
    submitHandler s none = (.error .typeError, s) := by
  refine ⟨?_, ?_, rfl⟩
  · intro a b c h1 h2 h3
    simp [submitHandler, h1, h2, h3, newTransaction, hl]
  · rintro ⟨k, hk, h⟩
    unfold submitHandler
    simp only
    split
    · rename_i h1 h2 h3
      simp only [List.mem_cons, List.not_mem_nil, or_false] at hk
      rcases hk with rfl | rfl | rfl
      · rw [h] at h1; simp at h1
      · rw [h] at h2; simp at h2
      · rw [h] at h3; simp at h3
    · rfl

example : (submitHandler (⟨[], [⟨1, 0, [], 100, 1⟩], []⟩ : State (Nat × Nat × Nat) Nat)
    (some [("amount", 5), ("sender", 3), ("recipient", 4)])).2.current = [(3, 4, 5)] := by decide

/-! ### Networks -/

/-- Node `i` (one of the first `k`) has an address of node `j`. -/
def Knows (host : String → Nat) (net : Net Tx Hs) (k i j : Nat) : Prop := i < k ∧ ∃ a ∈ (net i).nodes, host a = j

/-- `j` is reached from `i` in `r` steps from a node to one it knows. -/
inductive Reached (host : String → Nat) (net : Net Tx Hs) (k : Nat) : Nat → Nat → Nat → Prop
  | here (i : Nat) : Reached host net k 0 i i
  | step {r i j t : Nat} : Knows host net k i j → Reached host net k r j t → Reached host net k (r + 1) i t

/-- One run of `consensus`, when all chains are valid. -/
theorem consensus_spec (C : Crypto Tx Hs) (host : String → Nat) (net : Net Tx Hs) (hv : ∀ j, validChain C (net j).chain = .ok true) (i : Nat) :
    (∀ j, (consensus C host net i j).nodes = (net j).nodes) ∧
    (∀ j, (net j).chain.length ≤ (consensus C host net i j).chain.length) ∧
    (∀ j, ∃ l, (consensus C host net i j).chain = (net l).chain) ∧
    ∀ a ∈ (net i).nodes, (net (host a)).chain.length ≤ (consensus C host net i i).chain.length := by
  obtain ⟨b, s', h1, -, h3, h4, h5⟩ := C68_longest_partial C (net i) ((net i).nodes.map fun a => fullChain (net (host a)))
    (by simp [fullChain]) (by
      intro l c h
      rw [List.mem_map] at h
      obtain ⟨a, -, h⟩ := h
      simp only [fullChain, Resp.answer.injEq, true_and] at h
      rw [← h.1, ← h.2])
  have e : consensus C host net i = Function.update net i s' := by unfold consensus; rw [h1]
  rw [e]
  refine ⟨fun j => ?_, fun j => ?_, fun j => ?_, fun a ha => ?_⟩
  · by_cases hj : j = i
    · subst hj; simp [h3]
    · simp [hj]
  · by_cases hj : j = i
    · subst hj
      rw [Function.update_self]
      rcases h5 with ⟨-, rfl, -⟩ | ⟨-, h, -⟩
      · exact le_rfl
      · exact h.le
    · simp [hj]
  · by_cases hj : j = i
    · subst hj
      rw [Function.update_self]
      rcases h5 with ⟨-, rfl, -⟩ | ⟨-, -, -, l, h⟩
      · exact ⟨j, rfl⟩
      · rw [List.mem_map] at h
        obtain ⟨a, -, h⟩ := h
        simp only [fullChain, Resp.answer.injEq, true_and] at h
        exact ⟨host a, h.2.symm⟩
    · exact ⟨j, by simp [hj]⟩
  · rw [Function.update_self]
    exact h4 _ _ (List.mem_map.mpr ⟨a, ha, rfl⟩) (hv _)

theorem consensusAll_spec (C : Crypto Tx Hs) (host : String → Nat) (order : List Nat) : ∀ (net : Net Tx Hs),
    (∀ j, validChain C (net j).chain = .ok true) →
    (∀ j, (consensusAll C host net order j).nodes = (net j).nodes) ∧
    (∀ j, (net j).chain.length ≤ (consensusAll C host net order j).chain.length) ∧
    (∀ j, ∃ l, (consensusAll C host net order j).chain = (net l).chain) ∧
    ∀ i ∈ order, ∀ a ∈ (net i).nodes, (net (host a)).chain.length ≤ (consensusAll C host net order i).chain.length := by
  induction order with
  | nil => intro net _; exact ⟨fun _ => rfl, fun _ => le_rfl, fun j => ⟨j, rfl⟩, fun i h => by simp at h⟩
  | cons i order ih =>
    intro net hv
    obtain ⟨a1, a2, a3, a4⟩ := consensus_spec C host net hv i
    have hv' : ∀ j, validChain C (consensus C host net i j).chain = .ok true := by
      intro j
      obtain ⟨l, e⟩ := a3 j
      rw [e]; exact hv l
    obtain ⟨b1, b2, b3, b4⟩ := ih _ hv'
    refine ⟨fun j => (b1 j).trans (a1 j), fun j => (a2 j).trans (b2 j), fun j => ?_, fun x hx a ha => ?_⟩
    · obtain ⟨l, e⟩ := b3 j
      obtain ⟨l', e'⟩ := a3 l
      exact ⟨l', e.trans e'⟩
    · rcases List.mem_cons.mp hx with rfl | hx
      · exact (a4 a ha).trans (b2 x)
      · exact (a2 (host a)).trans (b4 x hx a (by rw [a1]; exact ha))

/-- **C125.** Any number of rounds of consensus, in each of which every one of the first `k` nodes runs `resolve_conflicts` at least once, in any
order: no chain gets shorter, every chain is one there was before, and after `r` rounds node `i` has a chain at least as long as every
node's that is reached from it in at most `r` steps. -/
theorem C125_spread (C : Crypto Tx Hs) (host : String → Nat) (net : Net Tx Hs) (hv : ∀ j, validChain C (net j).chain = .ok true) (k : Nat)
    (rounds : List (List Nat)) (hr : ∀ round ∈ rounds, ∀ i < k, i ∈ round) :
    (∀ j, (net j).chain.length ≤ (consensusAll C host net rounds.flatten j).chain.length) ∧
    (∀ j, ∃ l, (consensusAll C host net rounds.flatten j).chain = (net l).chain) ∧
    ∀ r i t, r ≤ rounds.length → Reached host net k r i t → (net t).chain.length ≤ (consensusAll C host net rounds.flatten i).chain.length := by
  obtain ⟨-, c2, c3, -⟩ := consensusAll_spec C host rounds.flatten net hv
  refine ⟨c2, c3, ?_⟩
  clear c2 c3
  -- the rounds are run from the last one backwards
  induction rounds using List.reverseRecOn with
  | nil =>
    intro r i t h0 h
    cases h with
    | here => exact le_rfl
    | step => simp at h0
  | append_singleton rounds round ih =>
    intro r i t h0 h
    have hr' : ∀ round ∈ rounds, ∀ i < k, i ∈ round := fun x hx => hr x (by simp [hx])
    obtain ⟨b1, b2, b3, -⟩ := consensusAll_spec C host rounds.flatten net hv
    have hv' : ∀ j, validChain C (consensusAll C host net rounds.flatten j).chain = .ok true := by
      intro j
      obtain ⟨l, e⟩ := b3 j
      rw [e]; exact hv l
    obtain ⟨c1, c2, c3, c4⟩ := consensusAll_spec C host round _ hv'
    have e : consensusAll C host net (rounds ++ [round]).flatten = consensusAll C host (consensusAll C host net rounds.flatten) round := by
      simp [consensusAll]
    rw [e]
    cases h with
    | here => exact (b2 _).trans (c2 _)
    | step hk hr'' =>
      obtain ⟨hik, a, ha, rfl⟩ := hk
      have h1 := ih hr' _ _ _ (by simp at h0; omega) hr''
      exact h1.trans (c4 i (hr round (by simp) i hik) a (by rw [b1]; exact ha))

/-- **C125, convergence of lengths.** If moreover every one of the `k` nodes reaches every other in at most as many steps as there are rounds,
all of them end with chains of one length, the length of the longest chain there was among them — if they know no others. -/
theorem C125_lengths_partial (C : Crypto Tx Hs) (host : String → Nat) (net : Net Tx Hs) (hv : ∀ j, validChain C (net j).chain = .ok true) (k : Nat)
    (rounds : List (List Nat)) (hr : ∀ round ∈ rounds, ∀ i < k, i ∈ round) (hk : ∀ i < k, ∀ a ∈ (net i).nodes, host a < k)
    (hc : ∀ i < k, ∀ t < k, ∃ r ≤ rounds.length, Reached host net k r i t) (M : Nat) (hM : ∀ i < k, (net i).chain.length ≤ M)
    (hM' : ∃ i < k, (net i).chain.length = M) : ∀ i < k, (consensusAll C host net rounds.flatten i).chain.length = M := by
  obtain ⟨-, -, h3⟩ := C125_spread C host net hv k rounds hr
  intro i hi
  refine le_antisymm ?_ ?_
  · -- no chain is longer than `M`
    have key : ∀ (order : List Nat) (net : Net Tx Hs), (∀ j, validChain C (net j).chain = .ok true) →
        (∀ i < k, ∀ a ∈ (net i).nodes, host a < k) → (∀ i < k, (net i).chain.length ≤ M) →
        ∀ i < k, (consensusAll C host net order i).chain.length ≤ M := by
      intro order
      induction order with
      | nil => intro net _ _ h; exact h
      | cons x order ih =>
        intro net hv hk hM
        obtain ⟨a1, a2, a3, a4⟩ := consensus_spec C host net hv x
        refine ih _ ?_ ?_ ?_
        · intro j
          obtain ⟨l, e⟩ := a3 j
          rw [e]; exact hv l
        · intro j hj a ha
          rw [a1] at ha
          exact hk j hj a ha
        · intro j hj
          by_cases hjx : j = x
          · subst hjx
            unfold consensus
            cases hres : resolve C (net j) ((net j).nodes.map fun a => fullChain (net (host a))) with
            | error e => exact hM j hj
            | ok r =>
              simp only [Function.update_self]
              obtain ⟨-, -, h⟩ := resolve_ok C _ _ r.1 r.2 hres
              rcases h with ⟨-, h⟩ | ⟨-, l, h, -⟩
              · rw [h]; exact hM j hj
              · rw [List.mem_map] at h
                obtain ⟨a, ha, h⟩ := h
                simp only [fullChain, Resp.answer.injEq, true_and] at h
                rw [← h.2]
                exact hM _ (hk j hj a ha)
          · unfold consensus
            cases resolve C (net x) ((net x).nodes.map fun a => fullChain (net (host a))) with
            | error e => exact hM j hj
            | ok r => simp only [Function.update_of_ne hjx]; exact hM j hj
    exact key _ net hv hk hM i hi
  · obtain ⟨t, ht, e⟩ := hM'
    obtain ⟨r, hr', h⟩ := hc i hi t ht
    rw [← e]
    exact h3 r i t hr' h

/-- Three nodes in a ring, each knowing the next; node 2 has the longest chain. -/
def ring : Net Nat Nat
  | 0 => ⟨[], [⟨1, 0, [], 100, 1⟩], ["b"]⟩
  | 1 => ⟨[], [⟨1, 0, [], 100, 1⟩], ["c"]⟩
  | 2 => ⟨[], [⟨1, 0, [], 100, 1⟩, ⟨2, 0, [], 0, 206⟩], ["a"]⟩
  | _ => ⟨[], [⟨1, 0, [], 100, 1⟩], []⟩
/-- Who has which address. -/
def ringHost (a : String) : Nat := if a = "a" then 0 else if a = "b" then 1 else 2

/-- The hypotheses of `C125_lengths_partial` hold of the ring with two rounds. This meets the hypotheses of `C125_spread`, `C125_lengths_partial`. -/
example : (∀ j, validChain toy (ring j).chain = .ok true) ∧ (∀ i < 3, ∀ a ∈ (ring i).nodes, ringHost a < 3) ∧
    (∀ i < 3, ∀ t < 3, ∃ r ≤ 2, Reached ringHost ring 3 r i t) ∧ ∃ i < 3, (ring i).chain.length = 2 := by
  have k0 : Knows ringHost ring 3 0 1 := ⟨by omega, "b", by decide, by decide⟩
  have k1 : Knows ringHost ring 3 1 2 := ⟨by omega, "c", by decide, by decide⟩
  have k2 : Knows ringHost ring 3 2 0 := ⟨by omega, "a", by decide, by decide⟩
  refine ⟨?_, by decide, ?_, 2, by omega, rfl⟩
  · intro j
    match j with
    | 0 => rfl
    | 1 => rfl
    | 2 => rfl
    | _ + 3 => rfl
  · intro i hi t ht
    have hi' : i = 0 ∨ i = 1 ∨ i = 2 := by omega
    have ht' : t = 0 ∨ t = 1 ∨ t = 2 := by omega
    rcases hi' with rfl | rfl | rfl <;> rcases ht' with rfl | rfl | rfl
    · exact ⟨0, by omega, .here _⟩
    · exact ⟨1, by omega, .step k0 (.here _)⟩
    · exact ⟨2, by omega, .step k0 (.step k1 (.here _))⟩
    · exact ⟨2, by omega, .step k1 (.step k2 (.here _))⟩
    · exact ⟨0, by omega, .here _⟩
    · exact ⟨1, by omega, .step k1 (.here _)⟩
    · exact ⟨1, by omega, .step k2 (.here _)⟩
    · exact ⟨2, by omega, .step k2 (.step k0 (.here _))⟩
    · exact ⟨0, by omega, .here _⟩

example : (List.range 3).map (fun i => (consensusAll toy ringHost ring [0, 1, 2, 0, 1, 2] i).chain.length) = [2, 2, 2] := by decide

/-- Two nodes that know each other, with different chains of the same length. -/
def tie : Net Nat Nat
  | 0 => ⟨[], [⟨1, 0, [], 100, 1⟩, ⟨2, 0, [7], 0, 206⟩], ["b"]⟩
  | _ => ⟨[], [⟨1, 0, [], 100, 1⟩, ⟨2, 0, [8], 0, 206⟩], ["a"]⟩

/-- **C125 is false** of the chains themselves: nodes with different chains of the same length keep them, however often they run consensus. -/
theorem C125_ties_refuted : (∀ j, validChain toy (tie j).chain = .ok true) ∧ (tie 0).chain ≠ (tie 1).chain ∧
    ∀ order : List Nat, consensusAll toy ringHost tie order = tie := by
  refine ⟨?_, by decide, ?_⟩
  · intro j
    match j with
    | 0 => rfl
    | _ + 1 => rfl
  · have step : ∀ i, consensus toy ringHost tie i = tie := by
      intro i
      match i with
      | 0 =>
        have : resolve toy (tie 0) ((tie 0).nodes.map fun a => fullChain (tie (ringHost a))) = .ok (false, tie 0) := rfl
        unfold consensus
        rw [this]
        exact Function.update_eq_self 0 tie
      | i + 1 =>
        have : resolve toy (tie (i + 1)) ((tie (i + 1)).nodes.map fun a => fullChain (tie (ringHost a))) = .ok (false, tie (i + 1)) := rfl
        unfold consensus
        rw [this]
        exact Function.update_eq_self (i + 1) tie
    intro order
    induction order with
    | nil => rfl
    | cons i order ih =>
      show consensusAll toy ringHost (consensus toy ringHost tie i) order = tie
      rw [step, ih]

end Verif.Props
