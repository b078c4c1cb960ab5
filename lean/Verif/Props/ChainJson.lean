import Verif.Proofs.ChainJsonEnc
/-!
# C134: a node keeps working whatever it is sent

Requests and answers are arbitrary JSON values. The vocabulary (`HasKey`, `Usable`, `Links`, …) is in `Spec/ChainJson`.
-/

namespace Verif.Props
open Verif.ChainJson Verif.Spec.ChainJson

variable {N : Type}

theorem powLoop_least (W : World N) (p : Json N) (h : String) : ∀ fuel q : Nat,
    (powLoop W p h fuel q = .error .diverge ∧ ∀ k < fuel, W.vp p (.num (W.ofNat (q + k))) h = false) ∨
      ∃ k < fuel, powLoop W p h fuel q = .ok (q + k) ∧ W.vp p (.num (W.ofNat (q + k))) h = true ∧ ∀ j < k, W.vp p (.num (W.ofNat (q + j))) h = false
  | 0, _ => .inl ⟨rfl, by omega⟩
  | fuel + 1, q => by
    simp only [powLoop]
    cases hv : W.vp p (.num (W.ofNat q)) h with
    | true => exact .inr ⟨0, by omega, by simp, by simpa using hv, by omega⟩
    | false =>
      have shift : ∀ j, q + 1 + j = q + (j + 1) := fun j => by omega
      have step : ∀ {n : Nat}, (∀ j < n, W.vp p (.num (W.ofNat (q + 1 + j))) h = false) → ∀ j < n + 1, W.vp p (.num (W.ofNat (q + j))) h = false := by
        intro n hn j hj
        rcases j with _ | j
        · simpa using hv
        · rw [← shift]; exact hn j (by omega)
      rcases powLoop_least W p h fuel (q + 1) with ⟨h1, h2⟩ | ⟨k, hk, h1, h2, h3⟩
      · exact .inl ⟨by simpa using h1, step h2⟩
      · refine .inr ⟨k + 1, by omega, by simpa [shift] using h1, by rw [← shift]; exact h2, step h3⟩

/-- **A node whose peers send chains that end in a block serves every request.** A node has served any history of requests, whatever their
bodies, and the chains in its peers' answers were lists ending in a dictionary with a proof and a number as index.  Then a transaction with
the three keys is recorded and answered with 201 and the index after that of the last block; any other body is refused, and nothing changes.
Mining appends one block, holding the recorded transactions and the reward, at the least valid proof; when there is none within reach
nothing changes. -/
theorem C134_serving_partial (W : World N) (fuel : Nat) (t : N) (reqs : List (Req N))
    (hs : ∀ as, Req.resolve as ∈ reqs → ∀ body c, Answer.answer 200 (.ok body) ∈ as → HasKey body "chain" c → Usable c) :
    let s := serveAll W fuel (init W t) reqs
    ∃ l b p n, s.chain = .arr (l ++ [b]) ∧ HasKey b "proof" p ∧
      (HasKey b "index" (.num n) ∨ ∃ v : Bool, HasKey b "index" (.bool v) ∧ n = W.ofNat (if v then 1 else 0)) ∧
      (∀ body, (∃ a b c, IsTransaction body a b c ∧ submitHandler W s body = (.ok (201, some (W.succ n)), { s with
          current := s.current ++ [.obj [("sender", a), ("recipient", b), ("amount", c)]] })) ∨
        (¬ ∃ a b c, IsTransaction body a b c) ∧
          (submitHandler W s body = (.ok (400, none), s) ∨ submitHandler W s body = (.error .typeError, s))) ∧
      ∀ me time,
        ((∀ q < fuel, W.vp p (.num (W.ofNat q)) (W.hash b) = false) ∧ mine W fuel s me time = (.error .diverge, s)) ∨
          ∃ q < fuel, W.vp p (.num (W.ofNat q)) (W.hash b) = true ∧ (∀ j < q, W.vp p (.num (W.ofNat j)) (W.hash b) = false) ∧
            mine W fuel s me time = (.ok 200, { s with current := [], chain := .arr (l ++ [b, .obj [("index", .num (W.ofNat (l.length + 2))),
              ("timestamp", .num time),
              ("transactions", .arr (s.current ++ [.obj [("sender", .str "0"), ("recipient", .str me), ("amount", .num (W.ofNat 1))]])),
              ("proof", .num (W.ofNat q)), ("previous_hash", .str (W.hash b))]]) }) := by
  intro s
  have hu : Usable s.chain := serveAll_usable W fuel reqs (init_usable W t) hs
  obtain ⟨l, b, p, n, hc, h1, h2, i, h3, h4⟩ := usable_last W hu
  refine ⟨l, b, p, n, hc, key_ok.1 h2, ?_, fun body => ?_, fun me time => ?_⟩
  · cases i with
    | num x => cases h4; exact .inl (key_ok.1 h3)
    | bool v => cases h4; exact .inr ⟨v, key_ok.1 h3, rfl⟩
    | _ => cases h4
  · rcases submit_spec W s body with ⟨a, b', c, h, e⟩ | h
    · refine .inl ⟨a, b', c, h, ?_⟩
      rw [e, newTransaction_index W h1 h3 h4]
      rfl
    · exact .inr h
  · obtain ⟨l', b', hc', hm⟩ := mine_usable W hu fuel me time
    have hlb : l' = l ∧ b' = b := by
      have := hc'.symm.trans hc
      simpa [List.append_inj'] using this
    obtain ⟨rfl, rfl⟩ := hlb
    have hpow : proofOfWork W fuel b' = powLoop W p (W.hash b') fuel 0 := by
      simp [proofOfWork, h2, bind, Except.bind]
    rw [hpow] at hm
    rcases powLoop_least W p (W.hash b') fuel 0 with ⟨g1, g2⟩ | ⟨q, hq, g1, g2, g3⟩
    · rcases hm with ⟨e, he, hm⟩ | ⟨q, he, _⟩
      · rw [g1] at he
        cases he
        exact .inl ⟨fun q hq => by simpa using g2 q hq, hm⟩
      · rw [g1] at he; cases he
    · rcases hm with ⟨e, he, _⟩ | ⟨q', he, hm⟩
      · rw [g1] at he; cases he
      · rw [g1] at he
        cases he
        refine .inr ⟨q, hq, by simpa using g2, fun j hj => by simpa using g3 j hj, ?_⟩
        rw [hm]
        simp [block, reward, transaction]

/-- **How a body that is no transaction is refused**, in any state: a dictionary without one of the keys with 400; a list or a text with 400
too, unless the three names are among its elements, or parts of it, which raises `TypeError`, as every other value does. -/
theorem C134_refused (W : World N) (s : Node N) :
    (∀ d, (¬ ∃ a b c, IsTransaction (.obj d) a b c) → submitHandler W s (.obj d) = (.ok (400, none), s)) ∧
    (∀ l, ((∀ k ∈ ["sender", "recipient", "amount"], Json.str k ∈ l) → submitHandler W s (.arr l) = (.error .typeError, s)) ∧
      ((¬ ∀ k ∈ ["sender", "recipient", "amount"], Json.str k ∈ l) → submitHandler W s (.arr l) = (.ok (400, none), s))) ∧
    (∀ x, ((∀ k ∈ ["sender", "recipient", "amount"], ∃ a b, x.toList = a ++ k.toList ++ b) → submitHandler W s (.str x) = (.error .typeError, s)) ∧
      ((¬ ∀ k ∈ ["sender", "recipient", "amount"], ∃ a b, x.toList = a ++ k.toList ++ b) → submitHandler W s (.str x) = (.ok (400, none), s))) ∧
    submitHandler W s .null = (.error .typeError, s) ∧ (∀ b, submitHandler W s (.bool b) = (.error .typeError, s)) ∧
    ∀ n, submitHandler W s (.num n) = (.error .typeError, s) := by
  classical
  refine ⟨fun d h => ?_, fun l => ⟨fun h => ?_, fun h => ?_⟩, fun x => ⟨fun h => ?_, fun h => ?_⟩, rfl, fun _ => rfl, fun _ => rfl⟩
  · have hk : ∀ k, (Json.obj d).contains k = .ok (d.lookup k).isSome := fun _ => rfl
    simp only [submitHandler, hasAll, hk, bind, Except.bind]
    cases h1 : d.lookup "sender" with
    | none => simp
    | some a =>
      cases h2 : d.lookup "recipient" with
      | none => simp
      | some b =>
        cases h3 : d.lookup "amount" with
        | none => simp
        | some c => exact absurd ⟨a, b, c, ⟨_, rfl, h1⟩, ⟨_, rfl, h2⟩, ⟨_, rfl, h3⟩⟩ h
  · rw [submitHandler, hasAll_arr, decide_eq_true h]
    rfl
  · rw [submitHandler, hasAll_arr, decide_eq_false h]
  · rw [submitHandler, hasAll_str, decide_eq_true h]
    rfl
  · rw [submitHandler, hasAll_str, decide_eq_false h]

/-- **Registering never touches the chain or the recorded transactions, and never forgets a node.** A body that is no dictionary raises
`AttributeError`, one without `nodes` (or with `null`) gets 400, and nothing changes. -/
theorem C134_register (W : World N) (s : Node N) (body : Json N) :
    ((registerHandler W s body).2.chain = s.chain ∧ (registerHandler W s body).2.current = s.current ∧
      ∀ x ∈ s.nodes, x ∈ (registerHandler W s body).2.nodes) ∧
    ((∀ d, body ≠ .obj d) → registerHandler W s body = (.error .attributeError, s)) ∧
    (∀ d, body = .obj d → (d.lookup "nodes" = none ∨ d.lookup "nodes" = some .null) → registerHandler W s body = (.ok 400, s)) := by
  refine ⟨register_spec W s body, fun h => ?_, ?_⟩
  · cases body <;> first | rfl | exact absurd rfl (h _)
  · rintro d rfl h
    rcases h with h | h <;> simp [registerHandler, getKey, h]

/-- **Registering a list, or a dictionary's keys.** When every address has a network location or a path, `f a`, the request is answered with
201 and the node knows exactly those it knew and those of the list; a dictionary counts as the list of its keys.  A number raises
`TypeError`. -/
theorem C134_register_list (W : World N) (s : Node N) (d : List (String × Json N)) (f : Json N → String) (l : List (Json N))
    (hl : ∀ a ∈ l, f a ≠ "" ∧ ∃ path, W.parse a = .ok (f a, path) ∨ (path = f a ∧ W.parse a = .ok ("", path))) :
    (d.lookup "nodes" = some (.arr l) ∨ (∃ e, d.lookup "nodes" = some (.obj e) ∧ l = e.map fun a => .str a.1) →
      (registerHandler W s (.obj d)).1 = .ok 201 ∧
        ∀ x, x ∈ (registerHandler W s (.obj d)).2.nodes ↔ x ∈ s.nodes ∨ ∃ a ∈ l, f a = x) ∧
    (∀ n, d.lookup "nodes" = some (.num n) → registerHandler W s (.obj d) = (.error .typeError, s)) := by
  refine ⟨fun h => ?_, fun n h => by simp [registerHandler, getKey, h, Json.iter]⟩
  have hlp := registerLoop_ok W f l s hl
  have e : registerHandler W s (.obj d) = match registerLoop W s l with
      | (.ok _, s') => (.ok 201, s')
      | (.error e, s') => (.error e, s') := by
    rcases h with h | ⟨e, h, rfl⟩
    · simp only [registerHandler, getKey, h, Option.getD_some, Json.iter]
      cases registerLoop W s l with
      | mk r s' => cases r <;> rfl
    · simp only [registerHandler, getKey, h, Option.getD_some, Json.iter]
      cases registerLoop W s (e.map fun a => .str a.1) with
      | mk r s' => cases r <;> rfl
  rw [e]
  revert hlp
  cases registerLoop W s l with
  | mk r s' =>
    cases r with
    | ok u => rintro ⟨_, h⟩; exact ⟨rfl, h⟩
    | error e => rintro ⟨h, _⟩; cases h

/-- **Which chains a node adopts.** Consulting its peers either leaves a node as it was, or puts in place of its chain the `chain` of an
answer with status 200: a non-empty list in which every element after the first is linked to the one before — or a text of one letter. -/
theorem C134_adopted (W : World N) (s : Node N) (as : List (Answer N)) :
    ((resolve W s as).2 = s ∧ (resolve W s as).1 ≠ .ok true) ∨ ∃ c body, resolve W s as = (.ok true, { s with chain := c }) ∧
      Answer.answer 200 (.ok body) ∈ as ∧ HasKey body "chain" c ∧
      ((∃ l, c = .arr l ∧ l ≠ [] ∧ Links W.hash W.vp l) ∨ ∃ x, c = .str x ∧ x.length = 1) := by
  rcases resolve_spec W s as with h | ⟨c, body, h1, h2, h3, h4⟩
  · exact .inl h
  · exact .inr ⟨c, body, h1, h2, h3, (validChain_iff W c).1 h4⟩

/-- **One peer: exactly when.** The answer's chain is adopted exactly when the status is 200, the `length` it claims is a number above the
length of the node's own chain, and the chain is one of those just described.  The claimed length is compared with nothing else. -/
theorem C134_adopted_iff (W : World N) (s : Node N) (l : List (Json N)) (hl : s.chain = .arr l) (st : Nat) (body c : Json N)
    (hc : HasKey body "chain" c) :
    (resolve W s [.answer st (.ok body)]).1 = .ok true ↔
      st = 200 ∧ ((∃ m, HasKey body "length" (.num m) ∧ W.lt (W.ofNat l.length) m = true) ∨
          ∃ b, HasKey body "length" (.bool b) ∧ W.lt (W.ofNat l.length) (W.ofNat (if b then 1 else 0)) = true) ∧
        ((∃ l, c = .arr l ∧ l ≠ [] ∧ Links W.hash W.vp l) ∨ ∃ x, c = .str x ∧ x.length = 1) := by
  rw [resolve_one W s l.length (by rw [hl]; rfl) st body c hc, validChain_iff]
  have : (∃ len m, HasKey body "length" len ∧ len.number W = .ok m ∧ W.lt (W.ofNat l.length) m = true) ↔
      ((∃ m, HasKey body "length" (.num m) ∧ W.lt (W.ofNat l.length) m = true) ∨
          ∃ b, HasKey body "length" (.bool b) ∧ W.lt (W.ofNat l.length) (W.ofNat (if b then 1 else 0)) = true) := by
    constructor
    · rintro ⟨len, m, h1, h2, h3⟩
      cases len with
      | num n => cases h2; exact .inl ⟨_, h1, h3⟩
      | bool b => cases h2; exact .inr ⟨_, h1, h3⟩
      | _ => cases h2
    · rintro (⟨m, h1, h2⟩ | ⟨b, h1, h2⟩)
      · exact ⟨_, m, h1, rfl, h2⟩
      · exact ⟨_, _, h1, rfl, h2⟩
  rw [this]

/-- **One answer breaks a node.** Whatever state a node is in, a peer that claims a large enough length and sends any one value `j` in a
list makes that list its chain.  When `j` is no dictionary, then for as long as the node does not consult its peers again, whatever else it
is asked, the chain stays so: every request to mine raises `TypeError`, and every transaction raises `TypeError` too — after it was
recorded. -/
theorem C134_junk_refuted (W : World N) (fuel : Nat) (s : Node N) (l : List (Json N)) (hl : s.chain = .arr l) (m : N)
    (hm : W.lt (W.ofNat l.length) m = true) (j : Json N) :
    resolve W s [.answer 200 (.ok (.obj [("length", .num m), ("chain", .arr [j])]))] = (.ok true, { s with chain := .arr [j] }) ∧
      ((∀ d, j ≠ .obj d) → ∀ reqs : List (Req N), (∀ as, Req.resolve as ∉ reqs) →
        let s' := serveAll W fuel { s with chain := .arr [j] } reqs
        s'.chain = .arr [j] ∧ (∀ me time, mine W fuel s' me time = (.error .typeError, s')) ∧
          ∀ body a b c, IsTransaction body a b c → submitHandler W s' body =
            (.error .typeError, { s' with current := s'.current ++ [.obj [("sender", a), ("recipient", b), ("amount", c)]] })) := by
  constructor
  · simp [resolve, hl, Json.len, resolveLoop, Json.key, List.lookup, bind, Except.bind, Json.number, hm, validChain, Json.item, pyIdx, validLoop,
      Json.truthy]
  · intro hd reqs hr
    have h1 : (serveAll W fuel { s with chain := .arr [j] } reqs).chain = .arr [j] := serveAll_stuck W fuel hd reqs _ rfl hr
    generalize serveAll W fuel { s with chain := .arr [j] } reqs = s' at h1 ⊢
    have hk : ∀ k, j.key k = .error .typeError := by
      intro k
      cases j <;> first | rfl | exact absurd rfl (hd _)
    have hlast : s'.chain.last = .ok j := by rw [h1]; rfl
    refine ⟨h1, fun me time => ?_, fun body a b c hb => ?_⟩
    · simp [mine, hlast, proofOfWork, hk, bind, Except.bind]
    · rcases submit_spec W s' body with ⟨a', b', c', h', e⟩ | ⟨hn, _⟩
      · have inj : ∀ {k v v'}, HasKey body k v → HasKey body k v' → v = v' := fun h1 h2 =>
          Except.ok.inj ((key_ok.2 h1).symm.trans (key_ok.2 h2))
        obtain ⟨rfl, rfl, rfl⟩ : a' = a ∧ b' = b ∧ c' = c := ⟨inj h'.1 hb.1, inj h'.2.1 hb.2.1, inj h'.2.2 hb.2.2⟩
        rw [e]
        simp [newTransaction, hlast, hk, bind, Except.bind, transaction]
      · exact absurd ⟨a, b, c, hb⟩ hn

/-- **Failed requests pay.** When the last block has a proof but no index (a peer's one-element chain may be such a block), each request to
mine raises `KeyError` and still records its reward.  After `k` of them the node adopts a proper chain; the next block it mines holds
`k + 1` rewards. -/
theorem C134_rewards_refuted (W : World N) (fuel : Nat) (s : Node N) (d : List (String × Json N)) (hs : s.chain = .arr [.obj d]) (p : Json N)
    (hp : d.lookup "proof" = some p) (hi : d.lookup "index" = none) (q : Nat) (hq : powLoop W p (W.hash (.obj d)) fuel 0 = .ok q) (me : String)
    (time : N) (k : Nat) (m : N) (hm : W.lt (W.ofNat 1) m = true) (l : List (Json N)) (b : Json N) (hb : IsBlock b)
    (hl : Links W.hash W.vp (l ++ [b])) (q' : Nat) (hq' : proofOfWork W fuel b = .ok q') :
    mine W fuel s me time = (.error .keyError, { s with current := s.current ++ [reward W me] }) ∧
    (serveAll W fuel s (List.replicate k (.mine me time) ++
        [.resolve [.answer 200 (.ok (.obj [("length", .num m), ("chain", .arr (l ++ [b]))]))], .mine me time])).chain =
      .arr (l ++ [b] ++ [.obj [("index", .num (W.ofNat (l.length + 2))), ("timestamp", .num time),
        ("transactions", .arr (s.current ++ List.replicate (k + 1) (.obj [("sender", .str "0"), ("recipient", .str me), ("amount", .num (W.ofNat 1))]))),
        ("proof", .num (W.ofNat q')), ("previous_hash", .str (W.hash b))]]) := by
  have hlast : s.chain.last = .ok (.obj d) := by rw [hs]; rfl
  have hp' : (Json.obj d).key "proof" = .ok p := by simp [Json.key, hp]
  have hi' : (Json.obj d).key "index" = .error .keyError := by simp [Json.key, hi]
  refine ⟨mine_noIndex W me time hlast hp' hq hi', ?_⟩
  have h1 := mines_noIndex W me time hp' hq hi' k s hlast
  simp only [serveAll] at h1
  simp only [serveAll, List.foldl_append, h1, List.foldl_cons, List.foldl_nil]
  have h2 : resolve W { s with current := s.current ++ List.replicate k (reward W me) }
      [.answer 200 (.ok (.obj [("length", .num m), ("chain", .arr (l ++ [b]))]))] =
        (.ok true, { s with current := s.current ++ List.replicate k (reward W me), chain := .arr (l ++ [b]) }) := by
    have hv := (validChain_arr W (l ++ [b])).2 ⟨by simp, hl⟩
    simp [resolve, hs, Json.len, resolveLoop, Json.key, List.lookup, bind, Except.bind, Json.number, hm, hv, Json.truthy]
  have h3 : (serve W fuel { s with current := s.current ++ List.replicate k (reward W me) }
      (.resolve [.answer 200 (.ok (.obj [("length", .num m), ("chain", .arr (l ++ [b]))]))])).2 =
        { s with current := s.current ++ List.replicate k (reward W me), chain := .arr (l ++ [b]) } := by
    simp only [serve, h2]
  rw [h3]
  have hu : Usable ({ s with current := s.current ++ List.replicate k (reward W me), chain := .arr (l ++ [b]) } : Node N).chain := ⟨l, b, rfl, hb⟩
  obtain ⟨l', b', hc, hm⟩ := mine_usable W hu fuel me time
  have hlb : l' = l ∧ b' = b := by
    have := hc.symm
    simpa [List.append_inj'] using this
  obtain ⟨rfl, rfl⟩ := hlb
  rcases hm with ⟨e, he, _⟩ | ⟨x, he, hm⟩
  · rw [hq'] at he; cases he
  · rw [hq'] at he
    cases he
    simp only [serve, hm]
    simp [block, reward, transaction, List.replicate_succ']

/-- **A text given as the list of nodes is registered letter by letter**, and answered with 201. -/
theorem C134_letters_refuted (W : World N) (s : Node N) (x : String)
    (hx : ∀ c ∈ x.toList, W.parse (.str (String.ofList [c])) = .ok ("", String.ofList [c])) :
    (registerHandler W s (.obj [("nodes", .str x)])).1 = .ok 201 ∧
      ∀ c ∈ x.toList, String.ofList [c] ∈ (registerHandler W s (.obj [("nodes", .str x)])).2.nodes := by
  have := registerLoop_text W x.toList s hx
  simp only [registerHandler, getKey, List.lookup, beq_self_eq_true, Option.getD_some, Json.iter]
  revert this
  cases registerLoop W s (x.toList.map fun c => .str (String.ofList [c])) with
  | mk r s' =>
    cases r with
    | ok u => rintro ⟨_, h⟩; exact ⟨rfl, h⟩
    | error e => rintro ⟨h, _⟩; cases h

/-- **On well-formed traffic nothing is lost by giving blocks a type.** A history whose bodies and answers are the JSON of transactions,
addresses and blocks with the five fields leads, from the first block on, to the JSON of the state that the typed model (`Model/Blockchain`)
reaches on it.  So what is proved there holds here. -/
theorem C134_typed (W : World N) (hW : ∀ a b : Nat, W.lt (W.ofNat a) (W.ofNat b) = true ↔ a < b) (fuel t : Nat)
    (ops : List (Chain.Op (Tx N) String)) (reqs : List (Req N)) (h : List.Forall₂ (EncOp W) ops reqs) :
    ∃ s₀, Chain.init (crypto W) t = .ok s₀ ∧
      serveAll W fuel (init W (W.ofNat t)) reqs = encState W (Chain.serveAll (crypto W) fuel s₀ ops) :=
  ⟨_, rfl, serveAll_enc W hW fuel h (s := ⟨[], [⟨1, t, [], 100, "1"⟩], []⟩) (by simp)⟩

/-! ## Instances -/

/-- A world with numbers for numbers, a hash that is always the same, and every proof valid. -/
private def W0 : World Nat where
  ofNat := id
  lt a b := decide (a < b)
  succ a := a + 1
  hash _ := "h"
  vp _ _ _ := true
  parse
    | .str s => .ok ("", s)
    | _ => .error .attributeError

private def tx0 : Json Nat := .obj [("sender", .str "a"), ("recipient", .str "b"), ("amount", .num 5)]

/-- This meets the hypotheses of `C134_serving_partial`: requests with all kinds of bodies, and a peer with a block. -/
example : let s := serveAll W0 1 (init W0 7) [.submit tx0, .submit (.num 3), .mine "me" 9, .register (.str "x"),
      .resolve [.answer 200 (.ok (.obj [("length", .num 9), ("chain", .arr [.obj [("proof", .str "p"), ("index", .bool true)]])]))]]
    s.chain = .arr [.obj [("proof", .str "p"), ("index", .bool true)]] ∧
      submitHandler W0 s tx0 = (.ok (201, some 2), { s with current := s.current ++ [tx0] }) := by
  intro s
  have h : ∀ as, Req.resolve as ∈ ([.submit tx0, .submit (.num 3), .mine "me" 9, .register (.str "x"),
      .resolve [.answer 200 (.ok (.obj [("length", .num 9), ("chain", .arr [.obj [("proof", .str "p"), ("index", .bool true)]])]))]] : List (Req Nat)) →
      ∀ body c, Answer.answer 200 (.ok body) ∈ as → HasKey body "chain" c → Usable c := by
    intro as hm body c ha hc
    simp only [List.mem_cons, reduceCtorEq, List.not_mem_nil, or_false, false_or, Req.resolve.injEq] at hm
    subst hm
    simp only [List.mem_singleton, Answer.answer.injEq, Except.ok.injEq, true_and] at ha
    subst ha
    obtain ⟨d, hd, hl⟩ := hc
    cases hd
    cases hl
    exact ⟨[], _, rfl, ⟨_, _, rfl, rfl⟩, _, ⟨_, rfl, rfl⟩, .inr ⟨_, rfl⟩⟩
  have := C134_serving_partial W0 1 7 _ h
  exact ⟨rfl, rfl⟩

/-- This meets the hypotheses of `C134_refused`: a text that mentions the three names. -/
example : submitHandler W0 (init W0 7) (.str "sender, recipient, amount") = (.error .typeError, init W0 7) :=
  ((C134_refused W0 (init W0 7)).2.2.1 "sender, recipient, amount").1 (by
    intro k hk
    simp only [List.mem_cons, List.not_mem_nil, or_false] at hk
    rcases hk with rfl | rfl | rfl
    · exact ⟨[], ", recipient, amount".toList, by decide⟩
    · exact ⟨"sender, ".toList, ", amount".toList, by decide⟩
    · exact ⟨"sender, recipient, ".toList, [], by decide⟩)

/-- This meets the hypotheses of `C134_register_list`: the keys of a dictionary. -/
example : "x" ∈ (registerHandler W0 (init W0 7) (.obj [("nodes", .obj [("x", .null)])])).2.nodes :=
  (((C134_register_list W0 (init W0 7) [("nodes", .obj [("x", .null)])] (fun a => match a with | .str s => s | _ => "") [.str "x"] (by
    intro a ha
    simp only [List.mem_singleton] at ha
    subst ha
    exact ⟨by decide, "x", .inr ⟨rfl, rfl⟩⟩)).1 (.inr ⟨_, rfl, rfl⟩)).2 "x").2 (.inr ⟨.str "x", by simp, rfl⟩)

/-- This meets the hypotheses of `C134_register`. -/
example : registerHandler W0 (init W0 7) (.arr []) = (.error .attributeError, init W0 7) :=
  (C134_register W0 (init W0 7) (.arr [])).2.1 (fun _ h => by cases h)

/-- This meets the hypotheses of `C134_adopted`: the second of two peers is followed. -/
example : (resolve W0 (init W0 7) [.answer 404 (.error .valueError), .answer 200 (.ok (.obj [("length", .num 2), ("chain", .str "x")]))]).1 = .ok true := rfl

/-- This meets the hypotheses of `C134_adopted_iff`: a text of one letter, with a claimed length of 2, replaces the chain. -/
example : (resolve W0 (init W0 7) [.answer 200 (.ok (.obj [("length", .num 2), ("chain", .str "x")]))]).1 = .ok true :=
  (C134_adopted_iff W0 (init W0 7) _ rfl 200 _ _ ⟨_, rfl, rfl⟩).2
    ⟨rfl, .inl ⟨2, ⟨_, rfl, rfl⟩, rfl⟩, .inr ⟨"x", rfl, by decide⟩⟩

/-- This meets the hypotheses of `C134_junk_refuted`: the number 5 as the only block. -/
example : submitHandler W0 { init W0 7 with chain := .arr [.num 5] } tx0 =
    (.error .typeError, { current := [tx0], chain := .arr [.num 5], nodes := [] }) :=
  ((C134_junk_refuted W0 1 (init W0 7) _ rfl 2 rfl (.num 5)).2 (fun _ h => by cases h) [] (by simp)).2.2 tx0 _ _ _
    ⟨⟨_, rfl, rfl⟩, ⟨_, rfl, rfl⟩, ⟨_, rfl, rfl⟩⟩

/-- This meets the hypotheses of `C134_rewards_refuted`: a block with nothing but a proof; three failed requests, four rewards. -/
example : (serveAll W0 1 { init W0 7 with chain := .arr [.obj [("proof", .num 3)]] } (List.replicate 3 (.mine "me" 9) ++
      [.resolve [.answer 200 (.ok (.obj [("length", .num 2), ("chain", .arr ([] ++ [block W0 1 0 [] (.num 3) "1"]))]))], .mine "me" 9])).chain =
    .arr ([] ++ [block W0 1 0 [] (.num 3) "1"] ++ [block W0 2 9 (List.replicate 4 (reward W0 "me")) (.num 0) "h"]) :=
  (C134_rewards_refuted W0 1 { init W0 7 with chain := .arr [.obj [("proof", .num 3)]] } _ rfl (.num 3) rfl rfl 0 rfl "me" 9 3 2 rfl []
    (block W0 1 0 [] (.num 3) "1") ⟨⟨_, _, rfl, rfl⟩, _, ⟨_, rfl, rfl⟩, .inl ⟨_, rfl⟩⟩ (fun i h => absurd h (by simp)) 0 rfl).2

/-- This meets the hypotheses of `C134_letters_refuted`. -/
example : "h" ∈ (registerHandler W0 (init W0 7) (.obj [("nodes", .str "host")])).2.nodes :=
  (C134_letters_refuted W0 (init W0 7) "host" (fun _ _ => rfl)).2 'h' (by decide)

/-- This meets the hypotheses of `C134_typed`: a transaction, then a block, then an answer with a chain. -/
example : ∃ s₀, Chain.init (crypto W0) 7 = .ok s₀ ∧
    serveAll W0 1 (init W0 7) [.submit tx0, .mine "me" 9, .register (.obj [("nodes", .arr [.str "x"])]),
      .resolve [.answer 200 (.ok (.obj [("length", .num 5), ("chain", .arr [block W0 1 0 [] (.num 3) "1"])]))]] =
      encState W0 (Chain.serveAll (crypto W0) 1 s₀ [.submit (.str "a", .str "b", .num 5), .mine (.str "0", .str "me", .num 1) 9,
        .register "" "x", .resolve [.answer 200 (5 : Nat) [⟨1, 0, [], 3, "1"⟩]]]) :=
  C134_typed W0 (fun a b => by simp [W0]) 1 7 _ _
    (.cons (.submit _ _ _ _ ⟨⟨_, rfl, rfl⟩, ⟨_, rfl, rfl⟩, ⟨_, rfl, rfl⟩⟩) (.cons (.mine "me" 9)
      (.cons (.register "" "x" (.str "x") _ rfl ⟨_, rfl, rfl⟩)
        (.cons (.resolve _ _ (.cons (.answer 200 5 [⟨1, 0, [], 3, "1"⟩] _ ⟨_, rfl, rfl⟩ ⟨_, rfl, rfl⟩) .nil)) .nil))))

end Verif.Props
