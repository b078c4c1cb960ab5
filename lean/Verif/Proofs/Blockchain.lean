import Verif.Spec.Chain
import Verif.Proofs.Air
/-! # The blockchain -/

namespace Verif.Chain
open Spec

variable {Tx Hs : Type} [DecidableEq Hs] (C : Crypto Tx Hs)

omit [DecidableEq Hs] in
theorem linked_cons_cons (a b : Block Tx Hs) (l : List (Block Tx Hs)) : Linked C (a :: b :: l) ↔
    (b.previousHash = C.hash a ∧ C.vp a.proof b.proof (C.hash a) = true) ∧ Linked C (b :: l) := by
  constructor
  · intro h
    refine ⟨h 0 a b rfl rfl, fun i x y hx hy => h (i + 1) x y (by simpa using hx) (by simpa using hy)⟩
  · rintro ⟨h1, h2⟩ i x y hx hy
    cases i with
    | zero =>
      simp only [List.getElem?_cons_zero, Option.some.injEq, zero_add, List.getElem?_cons_succ] at hx hy
      subst hx hy; exact h1
    | succ i => exact h2 i x y (by simpa using hx) (by simpa using hy)

theorem validLoop_iff (a : Block Tx Hs) (l : List (Block Tx Hs)) : validLoop C a l = true ↔ Linked C (a :: l) := by
  induction l generalizing a with
  | nil =>
    simp only [validLoop, true_iff]
    intro i x y _ hy
    simp at hy
  | cons b l ih =>
    rw [linked_cons_cons, ← ih]
    show (if b.previousHash ≠ C.hash a then false else if ¬ C.vp a.proof b.proof (C.hash a) then false else validLoop C b l) = true ↔ _
    by_cases h1 : b.previousHash = C.hash a
    · by_cases h2 : C.vp a.proof b.proof (C.hash a) = true
      · simp [h1, h2]
      · simp [h1, h2]
    · simp [h1]

theorem validChain_iff (l : List (Block Tx Hs)) : validChain C l = .ok true ↔ l ≠ [] ∧ Linked C l := by
  cases l with
  | nil => simp [validChain]
  | cons a l => simp [validChain, validLoop_iff]

theorem validChain_returns (l : List (Block Tx Hs)) (h : l ≠ []) : ∃ v, validChain C l = .ok v := by
  cases l with
  | nil => exact absurd rfl h
  | cons a l => exact ⟨_, rfl⟩

omit [DecidableEq Hs] in
/-- Adding a block that links to the last one. -/
theorem linked_snoc (l : List (Block Tx Hs)) (a b : Block Tx Hs) (hl : Linked C l) (ha : l.getLast? = some a)
    (h1 : b.previousHash = C.hash a) (h2 : C.vp a.proof b.proof (C.hash a) = true) : Linked C (l ++ [b]) := by
  intro i x y hx hy
  have hlen : i + 1 < (l ++ [b]).length := by
    obtain ⟨h, -⟩ := List.getElem?_eq_some_iff.mp hy
    exact h
  rw [List.length_append, List.length_singleton] at hlen
  rw [List.getElem?_append_left (by omega)] at hx
  by_cases hi : i + 1 < l.length
  · rw [List.getElem?_append_left hi] at hy
    exact hl i x y hx hy
  · have e : i + 1 = l.length := by omega
    rw [e, List.getElem?_append_right (le_refl _)] at hy
    simp at hy
    rw [List.getLast?_eq_getElem?, ← e, Nat.add_sub_cancel, hx] at ha
    simp only [Option.some.injEq] at ha
    subst ha hy
    exact ⟨h1, h2⟩

omit [DecidableEq Hs] in
theorem powLoop_spec (lp : Nat) (lh : Hs) (fuel : Nat) : ∀ p r, powLoop C lp lh fuel p = .ok r →
    C.vp lp r lh = true ∧ p ≤ r ∧ ∀ q, p ≤ q → q < r → C.vp lp q lh = false := by
  induction fuel with
  | zero => intro p r h; simp [powLoop] at h
  | succ fuel ih =>
    intro p r h
    unfold powLoop at h
    split at h
    · rename_i hv
      obtain ⟨h1, h2, h3⟩ := ih (p + 1) r h
      refine ⟨h1, by omega, fun q hq hqr => ?_⟩
      rcases Nat.eq_or_lt_of_le hq with rfl | hq
      · exact hv
      · exact h3 q hq hqr
    · rename_i hv
      simp only [Except.ok.injEq] at h
      subst h
      exact ⟨by simpa using hv, le_refl _, fun q h1 h2 => by omega⟩

omit [DecidableEq Hs] in
theorem powLoop_returns (lp : Nat) (lh : Hs) (k : Nat) : ∀ p, C.vp lp (p + k) lh = true → ∀ fuel > k, ∃ r, powLoop C lp lh fuel p = .ok r := by
  induction k with
  | zero =>
    intro p h fuel hf
    obtain ⟨fuel, rfl⟩ := Nat.exists_eq_succ_of_ne_zero (Nat.ne_of_gt hf)
    exact ⟨p, by simp only [powLoop]; rw [if_neg (by rw [show p = p + 0 from rfl, h]; simp)]⟩
  | succ k ih =>
    intro p h fuel hf
    obtain ⟨fuel, rfl⟩ := Nat.exists_eq_succ_of_ne_zero (Nat.ne_zero_of_lt hf)
    unfold powLoop
    split
    · exact ih (p + 1) (by rw [← h]; congr 1; omega) fuel (by omega)
    · exact ⟨p, rfl⟩

omit [DecidableEq Hs] in
/-- What `mine` does when it returns. -/
theorem mine_ok (fuel : Nat) (s : State Tx Hs) (reward : Tx) (time : Nat) (b : Block Tx Hs) (s' : State Tx Hs)
    (h : mine C fuel s reward time = .ok (b, s')) : ∃ last, s.chain.getLast? = some last ∧ b.previousHash = C.hash last ∧
      C.vp last.proof b.proof (C.hash last) = true ∧ b.index = s.chain.length + 1 ∧ b.transactions = s.current ++ [reward] ∧
      s'.chain = s.chain ++ [b] ∧ s'.current = [] ∧ s'.nodes = s.nodes := by
  unfold mine at h
  cases hl : s.chain.getLast? with
  | none => simp [hl, bind, Except.bind] at h
  | some last =>
    simp only [hl, Air.bind_iff] at h
    obtain ⟨l, hl', proof, hp, r, hr, h⟩ := h
    simp only [Except.ok.injEq] at hl'
    subst hl'
    simp only [newTransaction, hl, Except.ok.injEq] at hr
    subst hr
    simp only [newBlock, bind, Except.bind, Except.ok.injEq, Prod.mk.injEq] at h
    obtain ⟨rfl, rfl⟩ := h
    exact ⟨last, rfl, rfl, (powLoop_spec C _ _ _ _ _ hp).1, rfl, rfl, rfl, rfl, rfl⟩

/-- What `resolve_conflicts` can do to the chain. -/
theorem resolveLoop_sound (rs : List (Resp Tx Hs)) : ∀ (m : Int) (new r : Option (List (Block Tx Hs))),
    resolveLoop C rs m new = .ok r → r = new ∨ ∃ l c, Resp.answer 200 l c ∈ rs ∧ m < l ∧ validChain C c = .ok true ∧ r = some c := by
  induction rs with
  | nil => intro m new r h; simp [resolveLoop] at h; exact Or.inl h.symm
  | cons x rs ih =>
    intro m new r h
    cases x with
    | raises e => simp [resolveLoop] at h
    | answer status l c =>
      have lift : (r = new ∨ ∃ l c, Resp.answer 200 l c ∈ rs ∧ m < l ∧ validChain C c = .ok true ∧ r = some c) →
          (r = new ∨ ∃ l' c', Resp.answer 200 l' c' ∈ Resp.answer status l c :: rs ∧ m < l' ∧ validChain C c' = .ok true ∧ r = some c') := by
        rintro (h | ⟨l', c', h1, h2⟩)
        · exact Or.inl h
        · exact Or.inr ⟨l', c', List.mem_cons_of_mem _ h1, h2⟩
      unfold resolveLoop at h
      split at h
      · rename_i hs
        split at h
        · rename_i hm
          simp only [Air.bind_iff] at h
          obtain ⟨v, hv, h⟩ := h
          split at h
          · rename_i hvt
            subst hvt hs
            rcases ih l (some c) r h with h | ⟨l', c', h1, h2, h3, h4⟩
            · exact Or.inr ⟨l, c, by simp, hm, hv, h⟩
            · exact Or.inr ⟨l', c', List.mem_cons_of_mem _ h1, by omega, h3, h4⟩
          · exact lift (ih m new r h)
        · exact lift (ih m new r h)
      · exact lift (ih m new r h)

theorem resolve_ok (s : State Tx Hs) (rs : List (Resp Tx Hs)) (b : Bool) (s' : State Tx Hs) (h : resolve C s rs = .ok (b, s')) :
    s'.current = s.current ∧ s'.nodes = s.nodes ∧ ((b = false ∧ s' = s) ∨
      (b = true ∧ ∃ l, Resp.answer 200 l s'.chain ∈ rs ∧ (s.chain.length : Int) < l ∧ validChain C s'.chain = .ok true)) := by
  unfold resolve at h
  simp only [Air.bind_iff] at h
  obtain ⟨new, hn, h⟩ := h
  rcases resolveLoop_sound C rs _ _ _ hn with rfl | ⟨l, c, h1, h2, h3, rfl⟩
  · simp only [Except.ok.injEq, Prod.mk.injEq] at h
    obtain ⟨rfl, rfl⟩ := h
    exact ⟨rfl, rfl, Or.inl ⟨rfl, rfl⟩⟩
  · cases c with
    | nil => simp [validChain] at h3
    | cons x c =>
      simp only [Except.ok.injEq, Prod.mk.injEq] at h
      obtain ⟨rfl, rfl⟩ := h
      exact ⟨rfl, rfl, Or.inr ⟨rfl, l, h1, h2, h3⟩⟩

omit [DecidableEq Hs] in
theorem newTransaction_ok (s : State Tx Hs) (t : Tx) (r : Nat × State Tx Hs) (h : newTransaction s t = .ok r) :
    ∃ last, s.chain.getLast? = some last ∧ r.1 = last.index + 1 ∧ r.2 = { s with current := s.current ++ [t] } := by
  unfold newTransaction at h
  cases hl : s.chain.getLast? with
  | none => simp [hl] at h
  | some b => simp only [hl, Except.ok.injEq] at h; subst h; exact ⟨b, rfl, rfl, rfl⟩

omit [DecidableEq Hs] in
theorem registerNode_ok (s s' : State Tx Hs) (n p : String) (h : registerNode s n p = .ok s') : s'.chain = s.chain ∧ s'.current = s.current := by
  unfold registerNode at h
  split at h
  · simp only [Except.ok.injEq] at h; subst h; exact ⟨rfl, rfl⟩
  · split at h
    · simp only [Except.ok.injEq] at h; subst h; exact ⟨rfl, rfl⟩
    · simp at h

/-- How one request changes the chain. -/
theorem serve_chain (fuel : Nat) (s : State Tx Hs) (op : Op Tx Hs) :
    ((serve C fuel s op).chain = s.chain) ∨
    (∃ last b, s.chain.getLast? = some last ∧ b.previousHash = C.hash last ∧ C.vp last.proof b.proof (C.hash last) = true ∧
      b.index = s.chain.length + 1 ∧ (serve C fuel s op).chain = s.chain ++ [b]) ∨
    (∃ rs l, op = .resolve rs ∧ Resp.answer 200 l (serve C fuel s op).chain ∈ rs ∧ validChain C (serve C fuel s op).chain = .ok true) := by
  cases op with
  | submit t =>
    left
    cases h : newTransaction s t with
    | error e => simp [serve, h]
    | ok r => obtain ⟨-, -, -, h'⟩ := newTransaction_ok s t r h; simp [serve, h, h']
  | mine reward time =>
    cases h : mine C fuel s reward time with
    | error e => left; simp [serve, h]
    | ok r =>
      have e : serve C fuel s (.mine reward time) = r.2 := by simp [serve, h]
      rw [e]
      obtain ⟨last, h1, h2, h3, h4, -, h5, -⟩ := mine_ok C fuel s reward time r.1 r.2 h
      exact Or.inr (Or.inl ⟨last, r.1, h1, h2, h3, h4, h5⟩)
  | register n p =>
    left
    cases h : registerNode s n p with
    | error e => simp [serve, h]
    | ok r =>
      have e : serve C fuel s (.register n p) = r := by simp [serve, h]
      rw [e]; exact (registerNode_ok s r n p h).1
  | resolve rs =>
    cases h : resolve C s rs with
    | error e => left; simp [serve, h]
    | ok r =>
      have e : serve C fuel s (.resolve rs) = r.2 := by simp [serve, h]
      rw [e]
      rcases (resolve_ok C s rs r.1 r.2 h).2.2 with ⟨-, h⟩ | ⟨-, l, h1, -, h2⟩
      · left; rw [h]
      · exact Or.inr (Or.inr ⟨rs, l, rfl, h1, h2⟩)

theorem serve_valid (fuel : Nat) (s : State Tx Hs) (op : Op Tx Hs) (h : validChain C s.chain = .ok true) :
    validChain C (serve C fuel s op).chain = .ok true := by
  rcases serve_chain C fuel s op with h1 | ⟨last, b, h1, h2, h3, -, h4⟩ | ⟨rs, l, -, -, h1⟩
  · rw [h1]; exact h
  · rw [validChain_iff] at h ⊢
    rw [h4]
    exact ⟨by simp, linked_snoc C _ _ _ h.2 h1 h2 h3⟩
  · exact h1

theorem serveAll_valid (fuel : Nat) (s : State Tx Hs) (ops : List (Op Tx Hs)) (h : validChain C s.chain = .ok true) :
    validChain C (serveAll C fuel s ops).chain = .ok true := by
  induction ops generalizing s with
  | nil => exact h
  | cons op ops ih => exact ih _ (serve_valid C fuel s op h)

omit [DecidableEq Hs] in
theorem init_eq (time : Nat) : init C time = .ok ⟨[], [⟨1, time, [], 100, C.one⟩], []⟩ := rfl

omit [DecidableEq Hs] in
theorem counted_snoc (l : List (Block Tx Hs)) (b : Block Tx Hs) (h : Counted l) (hb : b.index = l.length + 1) : Counted (l ++ [b]) := by
  intro i x hx
  by_cases hi : i < l.length
  · rw [List.getElem?_append_left hi] at hx; exact h i x hx
  · have hlen : i < (l ++ [b]).length := (List.getElem?_eq_some_iff.mp hx).1
    rw [List.length_append, List.length_singleton] at hlen
    have : i = l.length := by omega
    subst this
    simp at hx
    rw [← hx, hb]

omit [DecidableEq Hs] in
/-- Appending a block that links to any block of the chain keeps a tree. -/
theorem treelike_snoc (l : List (Block Tx Hs)) (b : Block Tx Hs) (h : Treelike C l) (a : Block Tx Hs) (ha : a ∈ l)
    (h1 : b.previousHash = C.hash a) (h2 : C.vp a.proof b.proof (C.hash a) = true) : Treelike C (l ++ [b]) := by
  intro j x hx
  have hlen : j + 1 < (l ++ [b]).length := (List.getElem?_eq_some_iff.mp hx).1
  rw [List.length_append, List.length_singleton] at hlen
  by_cases hj : j + 1 < l.length
  · rw [List.getElem?_append_left hj] at hx
    obtain ⟨i, hi, y, hy, h3⟩ := h j x hx
    exact ⟨i, hi, y, by rw [List.getElem?_append_left (by omega)]; exact hy, h3⟩
  · have e : j + 1 = l.length := by omega
    rw [e, List.getElem?_append_right (le_refl _)] at hx
    simp at hx
    subst hx
    obtain ⟨i, hi, hia⟩ := List.getElem_of_mem ha
    exact ⟨i, by omega, a, by rw [List.getElem?_append_left hi, List.getElem?_eq_getElem hi, hia], h1, h2⟩

end Verif.Chain

namespace Verif.Chain
open Spec

variable {Tx Hs : Type} [DecidableEq Hs] (C : Crypto Tx Hs)

/-- With honest lengths the loop keeps the longest valid chain. -/
theorem resolveLoop_max (rs : List (Resp Tx Hs)) (hh : ∀ l c, Resp.answer 200 l c ∈ rs → l = c.length) :
    ∀ (m : Int) (new r : Option (List (Block Tx Hs))), resolveLoop C rs m new = .ok r →
    ∃ M : Int, m ≤ M ∧ ((r = new ∧ M = m) ∨ ∃ c, r = some c ∧ (c.length : Int) = M ∧ m < M) ∧
      ∀ l c, Resp.answer 200 l c ∈ rs → validChain C c = .ok true → (c.length : Int) ≤ M := by
  induction rs with
  | nil => intro m new r h; simp [resolveLoop] at h; exact ⟨m, le_refl _, Or.inl ⟨h.symm, rfl⟩, by simp⟩
  | cons x rs ih =>
    have hh' : ∀ l c, Resp.answer 200 l c ∈ rs → l = c.length := fun l c h => hh l c (List.mem_cons_of_mem _ h)
    intro m new r h
    cases x with
    | raises e => simp [resolveLoop] at h
    | answer status l c =>
      -- the response is skipped: it is not better than `m`
      have skip : resolveLoop C rs m new = .ok r → (status = 200 → validChain C c = .ok true → (c.length : Int) ≤ m) →
          ∃ M : Int, m ≤ M ∧ ((r = new ∧ M = m) ∨ ∃ c, r = some c ∧ (c.length : Int) = M ∧ m < M) ∧
          ∀ l' c', Resp.answer 200 l' c' ∈ Resp.answer status l c :: rs → validChain C c' = .ok true → (c'.length : Int) ≤ M := by
        intro h hle
        obtain ⟨M, h1, h2, h3⟩ := ih hh' m new r h
        refine ⟨M, h1, h2, fun l' c' hm hv => ?_⟩
        rcases List.mem_cons.mp hm with hm | hm
        · simp only [Resp.answer.injEq] at hm
          obtain ⟨rfl, rfl, rfl⟩ := hm
          exact le_trans (hle rfl hv) h1
        · exact h3 l' c' hm hv
      unfold resolveLoop at h
      split at h
      · rename_i hs
        subst hs
        have hlc := hh l c (by simp)
        split at h
        · rename_i hm
          simp only [Air.bind_iff] at h
          obtain ⟨v, hv, h⟩ := h
          split at h
          · rename_i hvt
            subst hvt
            obtain ⟨M, h1, h2, h3⟩ := ih hh' l (some c) r h
            refine ⟨M, by omega, Or.inr ?_, fun l' c' hm' hv' => ?_⟩
            · rcases h2 with ⟨h4, h5⟩ | ⟨c', h4, h5, h6⟩
              · exact ⟨c, h4, by omega, by omega⟩
              · exact ⟨c', h4, h5, by omega⟩
            · rcases List.mem_cons.mp hm' with hm' | hm'
              · simp only [Resp.answer.injEq] at hm'
                obtain ⟨-, rfl, rfl⟩ := hm'
                omega
              · exact h3 l' c' hm' hv'
          · rename_i hvf
            exact skip h (fun _ hv' => by rw [hv] at hv'; simp at hv'; exact absurd hv' hvf)
        · exact skip h (fun _ _ => by omega)
      · rename_i hs
        exact skip h (fun h => absurd h hs)

theorem resolveLoop_returns (rs : List (Resp Tx Hs)) (hr : ∀ e, Resp.raises e ∉ rs)
    (hh : ∀ l c, Resp.answer 200 l c ∈ rs → c = [] → l ≤ 0) :
    ∀ (m : Int) (new : Option (List (Block Tx Hs))), 0 ≤ m → ∃ r, resolveLoop C rs m new = .ok r := by
  induction rs with
  | nil => intro m new _; exact ⟨new, rfl⟩
  | cons x rs ih =>
    have ih := ih (fun e h => hr e (List.mem_cons_of_mem _ h)) (fun l c h => hh l c (List.mem_cons_of_mem _ h))
    intro m new hm
    cases x with
    | raises e => exact absurd (by simp) (hr e)
    | answer status l c =>
      unfold resolveLoop
      split
      · rename_i hs
        subst hs
        split
        · rename_i hlt
          obtain ⟨v, hv⟩ := validChain_returns C c (fun h => by have := hh l c (by simp) h; omega)
          rw [hv]
          show ∃ r, (if v = true then resolveLoop C rs l (some c) else resolveLoop C rs m new) = _
          split
          · exact ih l (some c) (by omega)
          · exact ih m new hm
        · exact ih m new hm
      · exact ih m new hm

omit [DecidableEq Hs] in
theorem mine_returns (fuel : Nat) (hm : ∀ lp lh, ∃ k < fuel, C.vp lp k lh = true) (s : State Tx Hs) (hs : s.chain ≠ []) (reward : Tx)
    (time : Nat) : ∃ r, mine C fuel s reward time = .ok r := by
  obtain ⟨last, hl⟩ : ∃ last, s.chain.getLast? = some last := ⟨_, List.getLast?_eq_getLast_of_ne_nil hs⟩
  obtain ⟨k, hk, hv⟩ := hm last.proof (C.hash last)
  obtain ⟨p, hp⟩ := powLoop_returns C last.proof (C.hash last) k 0 (by simpa using hv) fuel hk
  unfold mine
  rw [hl]
  simp only [bind, Except.bind, proofOfWork, hp, newTransaction, hl, newBlock]
  exact ⟨_, rfl⟩

/-- The transactions after one request other than `resolve`. -/
theorem serve_allTx (fuel : Nat) (hm : ∀ lp lh, ∃ k < fuel, C.vp lp k lh = true) (s : State Tx Hs) (hs : s.chain ≠ []) (op : Op Tx Hs)
    (ho : ∀ rs, op ≠ .resolve rs) : allTx (serve C fuel s op) = allTx s ++ added op ∧ (serve C fuel s op).chain ≠ [] := by
  cases op with
  | submit t =>
    cases h : newTransaction s t with
    | error e =>
      unfold newTransaction at h
      rw [List.getLast?_eq_getLast_of_ne_nil hs] at h
      simp at h
    | ok r =>
      obtain ⟨-, -, -, h'⟩ := newTransaction_ok s t r h
      have e : serve C fuel s (.submit t) = r.2 := by simp [serve, h]
      rw [e, h']
      exact ⟨by simp [allTx, added], hs⟩
  | mine reward time =>
    obtain ⟨r, h⟩ := mine_returns C fuel hm s hs reward time
    have e : serve C fuel s (.mine reward time) = r.2 := by simp [serve, h]
    rw [e]
    obtain ⟨last, -, -, -, -, h4, h5, h6, -⟩ := mine_ok C fuel s reward time r.1 r.2 h
    refine ⟨?_, by rw [h5]; simp⟩
    simp [allTx, added, h4, h5, h6]
  | register n p =>
    cases h : registerNode s n p with
    | error e =>
      have e : serve C fuel s (.register n p) = s := by simp [serve, h]
      rw [e]; exact ⟨by simp [added], hs⟩
    | ok r =>
      have e : serve C fuel s (.register n p) = r := by simp [serve, h]
      obtain ⟨h1, h2⟩ := registerNode_ok s r n p h
      rw [e]; exact ⟨by simp [allTx, added, h1, h2], by rw [h1]; exact hs⟩
  | resolve rs => exact absurd rfl (ho rs)

omit [DecidableEq Hs] in
/-- What one scheduling decision can do. -/
theorem conc_cases (fuel : Nat) (c : Conf Tx Hs) (ch : Choice Tx) :
    ((conc C fuel c ch).shared.chain = c.shared.chain ∧ ∀ i b p, ((conc C fuel c ch).threads i).held = some (b, p) →
      (c.threads i).held = some (b, p) ∨ (c.shared.chain.getLast? = some b ∧ C.vp b.proof p (C.hash b) = true)) ∨
    (∃ i a p b, (c.threads i).held = some (a, p) ∧ b.previousHash = C.hash a ∧ b.proof = p ∧ b.index = c.shared.chain.length + 1 ∧
      (conc C fuel c ch).shared.chain = c.shared.chain ++ [b] ∧ ((conc C fuel c ch).threads i).held = none ∧
      ∀ j, j ≠ i → (conc C fuel c ch).threads j = c.threads j) := by
  cases ch with
  | submit t =>
    left
    cases h : newTransaction c.shared t with
    | error e =>
      have e : conc C fuel c (.submit t) = c := by simp [conc, h]
      rw [e]; exact ⟨rfl, fun i b p h => Or.inl h⟩
    | ok r =>
      obtain ⟨-, -, -, h'⟩ := newTransaction_ok _ t r h
      have e : conc C fuel c (.submit t) = ⟨r.2, c.threads⟩ := by simp [conc, h]
      rw [e]; exact ⟨by simp only [h'], fun i b p h => Or.inl h⟩
  | step i reward time =>
    cases hpc : c.threads i with
    | start =>
      left
      cases hl : c.shared.chain.getLast? with
      | none =>
        have e : conc C fuel c (.step i reward time) = ⟨c.shared, fun j => if j = i then .done else c.threads j⟩ := by
          simp [conc, mineStep, hpc, hl]
        rw [e]
        refine ⟨rfl, fun j b p h => ?_⟩
        by_cases hj : j = i
        · simp [hj, Pc.held] at h
        · simp only [if_neg hj] at h; exact Or.inl h
      | some last =>
        cases hp : proofOfWork C fuel last with
        | error er =>
          have e : conc C fuel c (.step i reward time) = ⟨c.shared, fun j => if j = i then .done else c.threads j⟩ := by
            simp [conc, mineStep, hpc, hl, hp]
          rw [e]
          refine ⟨rfl, fun j b p h => ?_⟩
          by_cases hj : j = i
          · simp [hj, Pc.held] at h
          · simp only [if_neg hj] at h; exact Or.inl h
        | ok proof =>
          have e : conc C fuel c (.step i reward time) = ⟨c.shared, fun j => if j = i then .read last proof else c.threads j⟩ := by
            simp [conc, mineStep, hpc, hl, hp]
          rw [e]
          refine ⟨rfl, fun j b p h => ?_⟩
          by_cases hj : j = i
          · simp only [hj, if_true, Pc.held, Option.some.injEq, Prod.mk.injEq] at h
            obtain ⟨rfl, rfl⟩ := h
            exact Or.inr ⟨rfl, (powLoop_spec C _ _ _ _ _ hp).1⟩
          · simp only [if_neg hj] at h; exact Or.inl h
    | read last proof =>
      left
      cases ht : newTransaction c.shared reward with
      | error er =>
        have e : conc C fuel c (.step i reward time) = ⟨c.shared, fun j => if j = i then .done else c.threads j⟩ := by
          simp [conc, mineStep, hpc, ht]
        rw [e]
        refine ⟨rfl, fun j b p h => ?_⟩
        by_cases hj : j = i
        · simp [hj, Pc.held] at h
        · simp only [if_neg hj] at h; exact Or.inl h
      | ok r =>
        obtain ⟨-, -, -, h'⟩ := newTransaction_ok _ _ r ht
        have e : conc C fuel c (.step i reward time) = ⟨r.2, fun j => if j = i then .rewarded last proof else c.threads j⟩ := by
          simp [conc, mineStep, hpc, ht]
        rw [e]
        refine ⟨by simp only [h'], fun j b p h => ?_⟩
        by_cases hj : j = i
        · simp only [hj, if_true, Pc.held] at h
          left; rw [hj, hpc]; exact h
        · simp only [if_neg hj] at h; exact Or.inl h
    | rewarded last proof =>
      right
      refine ⟨i, last, proof, ⟨c.shared.chain.length + 1, time, c.shared.current, proof, C.hash last⟩, by rw [hpc]; rfl, rfl, rfl, rfl, ?_, ?_, ?_⟩
      · simp [conc, mineStep, hpc, newBlock, bind, Except.bind]
      · simp [conc, mineStep, hpc, newBlock, bind, Except.bind, Pc.held]
      · intro j hj
        simp [conc, mineStep, hpc, newBlock, bind, Except.bind, hj]
    | done =>
      left
      have e : conc C fuel c (.step i reward time) = ⟨c.shared, fun j => if j = i then .done else c.threads j⟩ := by
        simp [conc, mineStep, hpc]
      rw [e]
      refine ⟨rfl, fun j b p h => ?_⟩
      by_cases hj : j = i
      · simp [hj, Pc.held] at h
      · simp only [if_neg hj] at h; exact Or.inl h

/-- Every schedule keeps: requests in progress hold a block of the chain and a proof valid for it. -/
def Held (c : Conf Tx Hs) : Prop := ∀ i b p, (c.threads i).held = some (b, p) → b ∈ c.shared.chain ∧ C.vp b.proof p (C.hash b) = true

omit [DecidableEq Hs] in
theorem conc_inv (fuel : Nat) (c : Conf Tx Hs) (ch : Choice Tx) (h : Held C c) (hn : c.shared.chain ≠ []) (ht : Treelike C c.shared.chain)
    (hc : Counted c.shared.chain) :
    Held C (conc C fuel c ch) ∧ (conc C fuel c ch).shared.chain ≠ [] ∧ Treelike C (conc C fuel c ch).shared.chain ∧
      Counted (conc C fuel c ch).shared.chain := by
  rcases conc_cases C fuel c ch with ⟨h1, h2⟩ | ⟨i, a, p, b, h1, h2, h3, h4, h5, h6, h7⟩
  · rw [h1]
    refine ⟨fun i b p hb => ?_, hn, ht, hc⟩
    rw [h1]
    rcases h2 i b p hb with hb | ⟨hb, hv⟩
    · exact h i b p hb
    · exact ⟨List.mem_of_getLast? hb, hv⟩
  · obtain ⟨ha, hv⟩ := h i a p h1
    rw [h5]
    refine ⟨fun j b' p' hb => ?_, by simp, treelike_snoc C _ _ ht a ha h2 (h3 ▸ hv), counted_snoc _ _ hc h4⟩
    rw [h5]
    by_cases hj : j = i
    · rw [hj, h6] at hb; simp at hb
    · rw [h7 j hj] at hb
      obtain ⟨h8, h9⟩ := h j b' p' hb
      exact ⟨List.mem_append_left _ h8, h9⟩

omit [DecidableEq Hs] in
theorem concAll_inv (fuel : Nat) (sched : List (Choice Tx)) (c : Conf Tx Hs) (h : Held C c) (hn : c.shared.chain ≠ []) (ht : Treelike C c.shared.chain)
    (hc : Counted c.shared.chain) :
    Held C (concAll C fuel c sched) ∧ (concAll C fuel c sched).shared.chain ≠ [] ∧ Treelike C (concAll C fuel c sched).shared.chain ∧
      Counted (concAll C fuel c sched).shared.chain := by
  induction sched generalizing c with
  | nil => exact ⟨h, hn, ht, hc⟩
  | cons ch sched ih =>
    obtain ⟨h1, h2, h3, h4⟩ := conc_inv C fuel c ch h hn ht hc
    exact ih _ h1 h2 h3 h4

/-- While no two requests overlap, the one in progress holds the last block. -/
def HeldLast (c : Conf Tx Hs) : Prop := ∀ i b p, (c.threads i).held = some (b, p) → c.shared.chain.getLast? = some b ∧ C.vp b.proof p (C.hash b) = true

omit [DecidableEq Hs] in
theorem conc_excl (fuel : Nat) (c : Conf Tx Hs) (ch : Choice Tx) (he : Exclusive c) (h : HeldLast C c) (hl : Linked C c.shared.chain) :
    HeldLast C (conc C fuel c ch) ∧ Linked C (conc C fuel c ch).shared.chain := by
  rcases conc_cases C fuel c ch with ⟨h1, h2⟩ | ⟨i, a, p, b, h1, h2, h3, h4, h5, h6, h7⟩
  · rw [h1]
    refine ⟨fun i b p hb => ?_, hl⟩
    rw [h1]
    rcases h2 i b p hb with hb | hb
    · exact h i b p hb
    · exact hb
  · obtain ⟨ha, hv⟩ := h i a p h1
    rw [h5]
    refine ⟨fun j b' p' hb => ?_, linked_snoc C _ a b hl ha h2 (h3 ▸ hv)⟩
    by_cases hj : j = i
    · rw [hj, h6] at hb; simp at hb
    · rw [h7 j hj] at hb
      exact absurd (he j i (by rw [hb]; simp) (by rw [h1]; simp)) hj

omit [DecidableEq Hs] in
theorem concAll_excl (fuel : Nat) (sched : List (Choice Tx)) (c : Conf Tx Hs) (h : HeldLast C c) (hl : Linked C c.shared.chain)
    (he : ∀ k, Exclusive (concAll C fuel c (sched.take k))) : Linked C (concAll C fuel c sched).shared.chain := by
  induction sched generalizing c with
  | nil => exact hl
  | cons ch sched ih =>
    obtain ⟨h1, h2⟩ := conc_excl C fuel c ch (he 0) h hl
    exact ih _ h1 h2 (fun k => he (k + 1))

omit [DecidableEq Hs] in
theorem conc_allTx (fuel : Nat) (c : Conf Tx Hs) (ch : Choice Tx) (hn : c.shared.chain ≠ []) :
    allTx (conc C fuel c ch).shared = allTx c.shared ++ addedBy c ch := by
  have hnew : ∀ t, newTransaction c.shared t = .ok ((c.shared.chain.getLast hn).index + 1, { c.shared with current := c.shared.current ++ [t] }) := by
    intro t; simp [newTransaction, List.getLast?_eq_getLast_of_ne_nil hn]
  cases ch with
  | submit t => simp [conc, hnew, allTx, addedBy]
  | step i reward time =>
    cases hpc : c.threads i with
    | start =>
      simp only [conc, hpc, mineStep, addedBy, List.append_nil]
      split <;> simp_all
      split <;> simp_all
    | read last proof => simp [conc, hpc, mineStep, hnew, allTx, addedBy]
    | rewarded last proof => simp [conc, hpc, mineStep, allTx, addedBy, newBlock, bind, Except.bind]
    | done => simp [conc, hpc, mineStep, addedBy]

end Verif.Chain

namespace Verif.Chain
open Spec

variable {Tx Hs : Type} [DecidableEq Hs] (C : Crypto Tx Hs)

theorem serve_counted (fuel : Nat) (s : State Tx Hs) (op : Op Tx Hs) (h : Counted s.chain)
    (ho : ∀ rs, op = .resolve rs → ∀ l c, Resp.answer 200 l c ∈ rs → Counted c) : Counted (serve C fuel s op).chain := by
  rcases serve_chain C fuel s op with h1 | ⟨last, b, h1, h2, h3, h4, h5⟩ | ⟨rs, l, h1, h2, -⟩
  · rw [h1]; exact h
  · rw [h5]; exact counted_snoc _ _ h h4
  · exact ho rs h1 l _ h2

theorem serveAll_counted (fuel : Nat) (ops : List (Op Tx Hs)) (s : State Tx Hs) (h : Counted s.chain)
    (ho : ∀ rs, .resolve rs ∈ ops → ∀ l c, Resp.answer 200 l c ∈ rs → Counted c) : Counted (serveAll C fuel s ops).chain := by
  induction ops generalizing s with
  | nil => exact h
  | cons op ops ih =>
    exact ih _ (serve_counted C fuel s op h (fun rs e => ho rs (by simp [e]))) (fun rs hm => ho rs (List.mem_cons_of_mem _ hm))

/-- The block `i` holds `t`, or the chain is not that long yet and `t` is pending. -/
def Promised (i : Nat) (t : Tx) (s : State Tx Hs) : Prop :=
  (s.chain.length + 1 = i ∧ t ∈ s.current) ∨ ∃ b, s.chain[i - 1]? = some b ∧ b.index = i ∧ t ∈ b.transactions

theorem promised_serve (fuel : Nat) (i : Nat) (t : Tx) (s : State Tx Hs) (op : Op Tx Hs) (h : Promised i t s) (ho : ∀ rs, op ≠ .resolve rs) :
    Promised i t (serve C fuel s op) := by
  cases op with
  | submit t' =>
    cases hr : newTransaction s t' with
    | error e =>
      have e : serve C fuel s (.submit t') = s := by simp [serve, hr]
      rw [e]; exact h
    | ok r =>
      obtain ⟨-, -, -, h'⟩ := newTransaction_ok s t' r hr
      have e : serve C fuel s (.submit t') = r.2 := by simp [serve, hr]
      rw [e, h']
      rcases h with ⟨h1, h2⟩ | h
      · exact Or.inl ⟨h1, by simp [h2]⟩
      · exact Or.inr h
  | mine reward time =>
    cases hr : mine C fuel s reward time with
    | error e =>
      have e : serve C fuel s (.mine reward time) = s := by simp [serve, hr]
      rw [e]; exact h
    | ok r =>
      have e : serve C fuel s (.mine reward time) = r.2 := by simp [serve, hr]
      obtain ⟨last, -, -, -, h3, h4, h5, h6, -⟩ := mine_ok C fuel s reward time r.1 r.2 hr
      rw [e]
      right
      rcases h with ⟨h1, h2⟩ | ⟨b, h1, h2⟩
      · refine ⟨r.1, ?_, by omega, by rw [h4]; simp [h2]⟩
        rw [h5, ← h1]; simp
      · refine ⟨b, ?_, h2⟩
        have := (List.getElem?_eq_some_iff.mp h1).1
        rw [h5, List.getElem?_append_left this]; exact h1
  | register n p =>
    cases hr : registerNode s n p with
    | error e =>
      have e : serve C fuel s (.register n p) = s := by simp [serve, hr]
      rw [e]; exact h
    | ok r =>
      have e : serve C fuel s (.register n p) = r := by simp [serve, hr]
      obtain ⟨h1, h2⟩ := registerNode_ok s r n p hr
      unfold Promised
      rw [e, h1, h2]; exact h
  | resolve rs => exact absurd rfl (ho rs)

theorem promised_serveAll (fuel : Nat) (i : Nat) (t : Tx) (ops : List (Op Tx Hs)) (s : State Tx Hs) (h : Promised i t s) (ho : ∀ rs, Op.resolve rs ∉ ops) :
    Promised i t (serveAll C fuel s ops) := by
  induction ops generalizing s with
  | nil => exact h
  | cons op ops ih =>
    exact ih _ (promised_serve C fuel i t s op h (fun rs e => ho rs (by simp [e]))) (fun rs hm => ho rs (List.mem_cons_of_mem _ hm))

/-- A chain only grows at its end, unless `resolve` is called. -/
theorem serve_prefix (fuel : Nat) (s : State Tx Hs) (op : Op Tx Hs) (ho : ∀ rs, op ≠ .resolve rs) : s.chain <+: (serve C fuel s op).chain := by
  rcases serve_chain C fuel s op with h1 | ⟨last, b, h1, h2, h3, h4, h5⟩ | ⟨rs, l, h1, -⟩
  · rw [h1]
  · rw [h5]; exact List.prefix_append _ _
  · exact absurd h1 (ho rs)

end Verif.Chain

namespace Verif.Chain

variable {Tx Hs : Type} (C : Crypto Tx Hs)

/-- A thread that takes no step stays where it is. -/
theorem concAll_idle (fuel : Nat) (i : Nat) (sched : List (Choice Tx)) (c : Conf Tx Hs) (h : ∀ r t, Choice.step i r t ∉ sched) :
    (concAll C fuel c sched).threads i = c.threads i := by
  induction sched generalizing c with
  | nil => rfl
  | cons ch sched ih =>
    rw [show concAll C fuel c (ch :: sched) = concAll C fuel (conc C fuel c ch) sched from rfl,
      ih _ (fun r t hm => h r t (List.mem_cons_of_mem _ hm))]
    cases ch with
    | submit t =>
      cases hr : newTransaction c.shared t <;> simp [conc, hr]
    | step j r t =>
      have : i ≠ j := by rintro rfl; exact h r t (by simp)
      simp [conc, this]

end Verif.Chain
