import Verif.Proofs.ChainJson
import Verif.Model.Blockchain
/-!
# The JSON model of the blockchain against the typed one, and what broken chains do to a node
-/

namespace Verif.ChainJson
open Verif.Spec.ChainJson

variable {N : Type} (W : World N)

/-! ## Broken chains -/

theorem mine_noIndex {s : Node N} {b p : Json N} {fuel q : Nat} (me : String) (time : N) (hl : s.chain.last = .ok b)
    (hp : b.key "proof" = .ok p) (hq : powLoop W p (W.hash b) fuel 0 = .ok q) {e : PyErr} (hi : b.key "index" = .error e) :
    mine W fuel s me time = (.error e, { s with current := s.current ++ [reward W me] }) := by
  simp [mine, hl, proofOfWork, hp, hq, newTransaction, hi, bind, Except.bind]

theorem mines_noIndex {b p : Json N} {fuel q : Nat} (me : String) (time : N) (hp : b.key "proof" = .ok p)
    (hq : powLoop W p (W.hash b) fuel 0 = .ok q) {e : PyErr} (hi : b.key "index" = .error e) :
    ∀ (k : Nat) (s : Node N), s.chain.last = .ok b →
      serveAll W fuel s (List.replicate k (.mine me time)) = { s with current := s.current ++ List.replicate k (reward W me) }
  | 0, s, _ => by simp [serveAll]
  | k + 1, s, hl => by
    have h1 : (serve W fuel s (.mine me time)).2 = { s with current := s.current ++ [reward W me] } := by
      simp only [serve, mine_noIndex W me time hl hp hq hi]
    have := mines_noIndex me time hp hq hi k { s with current := s.current ++ [reward W me] } hl
    simp only [serveAll, List.replicate_succ, List.foldl_cons] at this ⊢
    rw [h1, this]
    simp

/-- No request other than `/nodes/resolve` changes a chain whose last element is no dictionary. -/
theorem serve_stuck (fuel : Nat) {s : Node N} {j : Json N} (hj : s.chain.last = .ok j) (hd : ∀ d, j ≠ .obj d) (r : Req N)
    (hr : ∀ as, r ≠ .resolve as) : (serve W fuel s r).2.chain = s.chain := by
  have hk : ∀ k, j.key k = .error .typeError := by
    intro k
    cases j <;> first | rfl | exact absurd rfl (hd _)
  cases r with
  | submit body =>
    rcases submit_spec W s body with ⟨a, b, c, _, e⟩ | ⟨_, e | e⟩
    · simp [serve, e, newTransaction, hj, hk, bind, Except.bind]
    · simp [serve, e]
    · simp [serve, e]
  | mine me time => simp [serve, mine, hj, proofOfWork, hk, bind, Except.bind]
  | register body => exact (register_spec W s body).1
  | resolve as => exact absurd rfl (hr as)

theorem serveAll_stuck (fuel : Nat) {j : Json N} (hd : ∀ d, j ≠ .obj d) : ∀ (reqs : List (Req N)) (s : Node N), s.chain.last = .ok j →
    (∀ as, Req.resolve as ∉ reqs) → (serveAll W fuel s reqs).chain = s.chain
  | [], _, _, _ => rfl
  | r :: rest, s, hj, hr => by
    have h1 := serve_stuck W fuel hj hd r fun as h => hr as (h ▸ List.mem_cons_self)
    have := serveAll_stuck fuel hd rest (serve W fuel s r).2 (by rw [h1]; exact hj) fun as h => hr as (List.mem_cons_of_mem _ h)
    exact this.trans h1

theorem registerLoop_text : ∀ (l : List Char) (s : Node N), (∀ c ∈ l, W.parse (.str (String.ofList [c])) = .ok ("", String.ofList [c])) →
    (registerLoop W s (l.map fun c => .str (String.ofList [c]))).1 = .ok () ∧
      ∀ c ∈ l, String.ofList [c] ∈ (registerLoop W s (l.map fun c => .str (String.ofList [c]))).2.nodes
  | [], s, _ => ⟨rfl, by simp⟩
  | c :: t, s, h => by
    have hc : String.ofList [c] ≠ "" := by
      intro he
      have := congrArg String.toList he
      simp at this
    obtain ⟨s', h1, h2⟩ : ∃ s', registerNode W s (.str (String.ofList [c])) = .ok s' ∧ String.ofList [c] ∈ s'.nodes := by
      simp only [registerNode, h c (by simp), bind, Except.bind, ne_eq, not_true_eq_false, if_false, hc, not_false_eq_true, if_true]
      refine ⟨_, rfl, ?_⟩
      simp only
      split <;> simp_all
    have ih := registerLoop_text t s' fun d hd => h d (List.mem_cons_of_mem _ hd)
    simp only [List.map_cons, registerLoop, h1]
    refine ⟨ih.1, fun d hd => ?_⟩
    rcases List.mem_cons.1 hd with rfl | hd
    · exact (registerLoop_spec W _ s').2.2 _ h2
    · exact ih.2 d hd

/-! ## Blocks of the right shape -/

/-- A transaction of the typed model: the three values of a request body. -/
abbrev Tx (N : Type) := Json N × Json N × Json N

/-- The JSON of a transaction. -/
def encTx (t : Tx N) : Json N := transaction t.1 t.2.1 t.2.2

/-- The JSON of a block of the typed model. -/
def encBlock (b : Chain.Block (Tx N) String) : Json N :=
  block W b.index (W.ofNat b.timestamp) (b.transactions.map encTx) (.num (W.ofNat b.proof)) b.previousHash

/-- The JSON state of a state of the typed model. -/
def encState (s : Chain.State (Tx N) String) : Node N := ⟨s.current.map encTx, .arr (s.chain.map (encBlock W)), s.nodes⟩

/-- The hash and proof functions of the typed model. -/
def crypto : Chain.Crypto (Tx N) String :=
  ⟨fun b => W.hash (encBlock W b), fun p q h => W.vp (.num (W.ofNat p)) (.num (W.ofNat q)) h, "1"⟩

/-- An answer carrying the JSON of a chain of blocks. -/
inductive EncResp : Chain.Resp (Tx N) String → Answer N → Prop
  | raises (e : PyErr) : EncResp (.raises e) (.raises e)
  | answer (status length : Nat) (chain : List (Chain.Block (Tx N) String)) (body : Json N)
      (hl : HasKey body "length" (.num (W.ofNat length))) (hc : HasKey body "chain" (.arr (chain.map (encBlock W)))) :
      EncResp (.answer status length chain) (.answer status (.ok body))

/-- A request of the typed model as JSON. -/
inductive EncOp : Chain.Op (Tx N) String → Req N → Prop
  | submit (a b c body : Json N) (h : IsTransaction body a b c) : EncOp (.submit (a, b, c)) (.submit body)
  | mine (me : String) (time : Nat) : EncOp (.mine (.str "0", .str me, .num (W.ofNat 1)) time) (.mine me (W.ofNat time))
  | register (netloc path : String) (address body : Json N) (hp : W.parse address = .ok (netloc, path))
      (hb : HasKey body "nodes" (.arr [address])) : EncOp (.register netloc path) (.register body)
  | resolve (rs : List (Chain.Resp (Tx N) String)) (as : List (Answer N)) (h : List.Forall₂ (EncResp W) rs as) : EncOp (.resolve rs) (.resolve as)

theorem enc_prev (b : Chain.Block (Tx N) String) : (encBlock W b).key "previous_hash" = .ok (.str b.previousHash) := rfl
theorem enc_proof (b : Chain.Block (Tx N) String) : (encBlock W b).key "proof" = .ok (.num (W.ofNat b.proof)) := rfl
theorem enc_index (b : Chain.Block (Tx N) String) : (encBlock W b).key "index" = .ok (.num (W.ofNat b.index)) := rfl

theorem validLoop_enc (L : List (Json N)) : ∀ (rest : List (Chain.Block (Tx N) String)) (b : Chain.Block (Tx N) String) (i : Nat),
    L.drop i = rest.map (encBlock W) → validLoop W (.arr L) rest.length i (encBlock W b) = .ok (Chain.validLoop (crypto W) b rest)
  | [], b, i, _ => rfl
  | c :: t, b, i, h => by
    have hi : L[i]? = some (encBlock W c) := by
      have := congrArg List.head? h
      simpa using this
    have hd : L.drop (i + 1) = t.map (encBlock W) := by
      have := congrArg List.tail h
      simpa using this
    simp only [List.length_cons, validLoop, Json.item, pyIdx, hi, bind, Except.bind, enc_prev, enc_proof, Json.isStr, Chain.validLoop]
    by_cases h1 : c.previousHash = W.hash (encBlock W b)
    · simp only [h1, crypto, beq_self_eq_true, not_true_eq_false, if_false, ne_eq]
      by_cases h2 : W.vp (.num (W.ofNat b.proof)) (.num (W.ofNat c.proof)) (W.hash (encBlock W b)) = true
      · simp only [h2, not_true_eq_false, if_false]
        exact validLoop_enc L t c (i + 1) hd
      · simp [h2]
    · simp [h1, crypto]

theorem validChain_enc (l : List (Chain.Block (Tx N) String)) : validChain W (.arr (l.map (encBlock W))) = Chain.validChain (crypto W) l := by
  cases l with
  | nil => rfl
  | cons b t =>
    simp only [validChain, Json.item, pyIdx, Json.len, bind, Except.bind, List.map_cons, List.getElem?_cons_zero, List.length_cons,
      List.length_map, Nat.add_sub_cancel, Chain.validChain]
    exact validLoop_enc W _ t b 1 rfl

/-- Comparison behaves on the naturals as it should. -/
def Numbers : Prop := ∀ a b : Nat, W.lt (W.ofNat a) (W.ofNat b) = true ↔ a < b

theorem resolveLoop_enc (hW : Numbers W) : ∀ {rs : List (Chain.Resp (Tx N) String)} {as : List (Answer N)}, List.Forall₂ (EncResp W) rs as →
    ∀ (m : Nat) (new : Option (List (Chain.Block (Tx N) String))),
      resolveLoop W as (W.ofNat m) (new.map fun c => .arr (c.map (encBlock W))) =
        (Chain.resolveLoop (crypto W) rs m new).map fun o => o.map fun c => .arr (c.map (encBlock W))
  | _, _, .nil, m, new => rfl
  | _, _, .cons (.raises e) _, m, new => rfl
  | _, _, .cons (.answer st len chain body hl hc) ht, m, new => by
    have ih := fun m new => resolveLoop_enc hW ht m new
    simp only [resolveLoop, Chain.resolveLoop, key_ok.2 hl, key_ok.2 hc, bind, Except.bind, Json.number, validChain_enc]
    split
    · split
      · rename_i h1 h2
        rw [if_pos (by exact_mod_cast (hW _ _).1 h2)]
        cases hv : Chain.validChain (crypto W) chain with
        | error e => rfl
        | ok v =>
          cases v with
          | true => exact ih len (some chain)
          | false => exact ih m new
      · rename_i h1 h2
        rw [if_neg (by exact_mod_cast fun h => h2 ((hW _ _).2 h))]
        exact ih m new
    · exact ih m new

theorem resolve_enc (hW : Numbers W) {rs : List (Chain.Resp (Tx N) String)} {as : List (Answer N)} (h : List.Forall₂ (EncResp W) rs as)
    (fuel : Nat) (s : Chain.State (Tx N) String) : (resolve W (encState W s) as).2 = encState W (Chain.serve (crypto W) fuel s (.resolve rs)) := by
  have hl := resolveLoop_enc W hW h s.chain.length none
  simp only [Option.map_none] at hl
  simp only [resolve, encState, Json.len, List.length_map, hl, Chain.serve, Chain.resolve, bind, Except.bind]
  cases Chain.resolveLoop (crypto W) rs s.chain.length none with
  | error e => rfl
  | ok o =>
    cases o with
    | none => rfl
    | some l => cases l <;> rfl

theorem powLoop_enc (p : Nat) (h : String) : ∀ (fuel q : Nat), powLoop W (.num (W.ofNat p)) h fuel q = Chain.powLoop (crypto W) p h fuel q
  | 0, _ => rfl
  | fuel + 1, q => by
    have e : (crypto W).vp p q h = W.vp (.num (W.ofNat p)) (.num (W.ofNat q)) h := rfl
    simp only [powLoop, Chain.powLoop, e, powLoop_enc p h fuel (q + 1)]

theorem last_enc {s : Chain.State (Tx N) String} {b : Chain.Block (Tx N) String} (h : s.chain.getLast? = some b) :
    (encState W s).chain.last = .ok (encBlock W b) := by
  simp [encState, Json.last, List.getLast?_map, h]

/-- **One request: the JSON model does what the typed one does.** -/
theorem serve_enc (hW : Numbers W) (fuel : Nat) {s : Chain.State (Tx N) String} (hs : s.chain ≠ []) {op : Chain.Op (Tx N) String} {r : Req N}
    (h : EncOp W op r) : (serve W fuel (encState W s) r).2 = encState W (Chain.serve (crypto W) fuel s op) := by
  obtain ⟨b, hb⟩ : ∃ b, s.chain.getLast? = some b := by
    cases hl : s.chain.getLast? with
    | none => exact absurd (List.getLast?_eq_none_iff.1 hl) hs
    | some b => exact ⟨b, rfl⟩
  have hbl := last_enc W hb
  have hnt : ∀ t, newTransaction W (encState W s) (encTx t) =
      (.ok (W.succ (W.ofNat b.index)), encState W { s with current := s.current ++ [t] }) := by
    intro t
    simp only [newTransaction, hbl, enc_index, bind, Except.bind, Json.number]
    simp [encState]
  cases h with
  | submit a b' c body h =>
    rcases submit_spec W (encState W s) body with ⟨a', b'', c', h', e⟩ | ⟨hn, _⟩
    · have inj : ∀ {k v v'}, HasKey body k v → HasKey body k v' → v = v' := fun h1 h2 => by
        have := (key_ok.2 h1).symm.trans (key_ok.2 h2)
        exact Except.ok.inj this
      obtain ⟨rfl, rfl, rfl⟩ : a' = a ∧ b'' = b' ∧ c' = c := ⟨inj h'.1 h.1, inj h'.2.1 h.2.1, inj h'.2.2 h.2.2⟩
      have := hnt (a', b'', c')
      simp only [encTx] at this
      simp only [serve, e, this, Chain.serve, Chain.newTransaction, hb]
    · exact absurd ⟨a, b', c, h⟩ hn
  | mine me time =>
    simp only [serve, mine, hbl, proofOfWork, enc_proof, bind, Except.bind, powLoop_enc, Chain.serve, Chain.mine, hb, Chain.proofOfWork]
    have e : W.hash (encBlock W b) = (crypto W).hash b := rfl
    rw [e]
    cases Chain.powLoop (crypto W) b.proof ((crypto W).hash b) fuel 0 with
    | error e => rfl
    | ok p =>
      have := hnt (.str "0", .str me, .num (W.ofNat 1))
      simp only [encTx] at this
      simp only [reward, this, Chain.newTransaction, hb, Chain.newBlock, bind, Except.bind]
      simp [newBlock, encState, Json.len, encBlock]
  | register netloc path address body hp hb' =>
    obtain ⟨d, rfl, hd⟩ := hb'
    simp only [serve, registerHandler, getKey, hd, Option.getD_some, Json.iter, registerLoop, registerNode, hp, bind, Except.bind, Chain.serve,
      Chain.registerNode]
    by_cases h1 : netloc = ""
    · by_cases h2 : path = ""
      · simp [h1, h2]
      · simp only [h1, h2, encState, ne_eq, not_true_eq_false, if_false, not_false_eq_true, if_true]
        congr 1
    · simp only [h1, encState, ne_eq, not_false_eq_true, if_true]
      congr 1
  | resolve rs as h =>
    rw [← resolve_enc W hW h fuel s]
    simp only [serve]
    cases resolve W (encState W s) as with
    | mk r s' => cases r <;> rfl

theorem serve_ne_nil (fuel : Nat) {s : Chain.State (Tx N) String} (hs : s.chain ≠ []) (op : Chain.Op (Tx N) String) :
    (Chain.serve (crypto W) fuel s op).chain ≠ [] := by
  cases op with
  | submit t =>
    simp only [Chain.serve, Chain.newTransaction]
    cases s.chain.getLast? <;> exact hs
  | mine r t =>
    simp only [Chain.serve]
    cases h : Chain.mine (crypto W) fuel s r t with
    | error e => exact hs
    | ok x =>
      simp only [Chain.mine, Chain.newBlock] at h
      cases hl : s.chain.getLast? with
      | none => simp [hl, bind, Except.bind] at h
      | some b =>
        simp only [hl, bind_ok_iff] at h
        obtain ⟨_, _, _, _, _, _, _, _, h⟩ := h
        cases h
        simp
  | register a b =>
    simp only [Chain.serve, Chain.registerNode]
    split
    · rename_i h
      split at h
      · cases h; exact hs
      · split at h
        · cases h; exact hs
        · cases h
    · exact hs
  | resolve rs =>
    simp only [Chain.serve]
    cases h : Chain.resolve (crypto W) s rs with
    | error e => exact hs
    | ok x =>
      simp only [Chain.resolve, bind_ok_iff] at h
      obtain ⟨o, _, h⟩ := h
      split at h
      · cases h; simp
      · cases h; exact hs

theorem serveAll_enc (hW : Numbers W) (fuel : Nat) : ∀ {ops : List (Chain.Op (Tx N) String)} {reqs : List (Req N)}, List.Forall₂ (EncOp W) ops reqs →
    ∀ {s : Chain.State (Tx N) String}, s.chain ≠ [] →
      serveAll W fuel (encState W s) reqs = encState W (Chain.serveAll (crypto W) fuel s ops)
  | _, _, .nil, _, _ => rfl
  | _, _, .cons (a := op) (b := r) h ht, s, hs => by
    have h1 := serve_enc W hW fuel hs h
    have := serveAll_enc hW fuel ht (serve_ne_nil W fuel hs op)
    simp only [serveAll, Chain.serveAll, List.foldl_cons] at this ⊢
    rw [h1, this]

end Verif.ChainJson
