import Verif.Spec.ChainJson
import Mathlib.Tactic.Common
/-!
# Lemmas on the JSON model of the blockchain
-/

namespace Verif.ChainJson
open Verif.Spec.ChainJson

variable {N : Type} (W : World N)

theorem key_ok {j : Json N} {k : String} {v : Json N} : j.key k = .ok v ↔ HasKey j k v := by
  cases j with
  | obj d =>
    simp only [Json.key, HasKey]
    cases h : d.lookup k with
    | none => simp [h]
    | some a => simp [h]
  | _ => simp [Json.key, HasKey]

theorem number_ok {j : Json N} : (∃ n, j.number W = .ok n) ↔ IsNumber j := by
  cases j <;> simp [Json.number, IsNumber]

theorem bind_ok_iff {α β : Type} {x : Py α} {f : α → Py β} {b : β} : (x >>= f) = .ok b ↔ ∃ a, x = .ok a ∧ f a = .ok b := by
  cases x with
  | error e => simp [bind, Except.bind]
  | ok a => simp [bind, Except.bind]

theorem isStr_iff {j : Json N} {s : String} : j.isStr s = true ↔ j = .str s := by
  cases j <;> simp [Json.isStr]

/-- The condition the loop of `valid_chain` checks at one pair of blocks. -/
def Link (a b : Json N) : Prop :=
  HasKey b "previous_hash" (.str (W.hash a)) ∧ ∃ p q, HasKey a "proof" p ∧ HasKey b "proof" q ∧ W.vp p q (W.hash a) = true

theorem validLoop_step (c : Json N) (fuel i : Nat) (last : Json N) :
    validLoop W c (fuel + 1) i last = .ok true ↔ ∃ b, c.item i = .ok b ∧ Link W last b ∧ validLoop W c fuel (i + 1) b = .ok true := by
  simp only [validLoop, bind_ok_iff, Link]
  constructor
  · rintro ⟨b, hb, prev, hp, h⟩
    by_cases hs : prev.isStr (W.hash last) = true
    · simp only [hs, not_true_eq_false, if_false, bind_ok_iff] at h
      obtain ⟨p, hp1, q, hq1, h⟩ := h
      by_cases hv : W.vp p q (W.hash last) = true
      · simp only [hv, not_true_eq_false, if_false] at h
        rw [isStr_iff] at hs
        subst hs
        exact ⟨b, hb, ⟨key_ok.1 hp, p, q, key_ok.1 hp1, key_ok.1 hq1, hv⟩, h⟩
      · simp [hv] at h
    · simp [hs] at h
  · rintro ⟨b, hb, ⟨hp, p, q, h1, h2, h3⟩, h⟩
    refine ⟨b, hb, _, key_ok.2 hp, ?_⟩
    simp only [Json.isStr, beq_self_eq_true, not_true_eq_false, if_false, bind_ok_iff]
    exact ⟨p, key_ok.2 h1, q, key_ok.2 h2, by simp [h3, h]⟩

theorem validLoop_arr (l : List (Json N)) : ∀ (fuel i : Nat) (last : Json N) (_ : i + fuel = l.length),
    validLoop W (.arr l) fuel i last = .ok true ↔
      ∀ k (h : i + k < l.length), Link W (if k = 0 then last else l[i + k - 1]) l[i + k]
  | 0, i, last, hl => by
    simp only [validLoop]
    constructor
    · intro _ k h; omega
    · intro _; trivial
  | fuel + 1, i, last, hl => by
    rw [validLoop_step]
    have hi : i < l.length := by omega
    have hit : (Json.arr l).item i = .ok l[i] := by
      simp [Json.item, pyIdx, List.getElem?_eq_getElem hi]
    rw [hit]
    have ih := validLoop_arr l fuel (i + 1) l[i] (by omega)
    constructor
    · rintro ⟨b, hb, h1, h2⟩
      cases hb
      rw [ih] at h2
      intro k hk
      rcases k with _ | k
      · simpa using h1
      · have := h2 k (by omega)
        have e : i + 1 + k = i + (k + 1) := by omega
        simp only [e] at this
        rcases k with _ | k
        · simpa using this
        · simpa using this
    · intro h
      refine ⟨_, rfl, by simpa using h 0 (by omega), ih.2 fun k hk => ?_⟩
      have := h (k + 1) (by omega)
      have e : i + 1 + k = i + (k + 1) := by omega
      simp only [e]
      rcases k with _ | k
      · simpa using this
      · simpa using this

theorem validChain_arr (l : List (Json N)) : validChain W (.arr l) = .ok true ↔ l ≠ [] ∧ Links W.hash W.vp l := by
  cases l with
  | nil => simp [validChain, Json.item, pyIdx, bind, Except.bind]
  | cons a t =>
    have : validChain W (.arr (a :: t)) = validLoop W (.arr (a :: t)) t.length 1 a := by
      simp [validChain, Json.item, pyIdx, Json.len, bind, Except.bind]
    rw [this, validLoop_arr W (a :: t) t.length 1 a (by simp; omega)]
    constructor
    · intro h
      refine ⟨by simp, fun i hi => ?_⟩
      have := h i (by omega)
      have e : 1 + i = i + 1 := by omega
      simp only [e] at this
      rcases i with _ | i
      · simpa [Link] using this
      · simpa [Link] using this
    · rintro ⟨_, h⟩ k hk
      have := h k (by omega)
      have e : 1 + k = k + 1 := by omega
      simp only [e]
      rcases k with _ | k
      · simpa [Link] using this
      · simpa [Link] using this

theorem validChain_str (s : String) : validChain W (.str s) = .ok true ↔ s.length = 1 := by
  have hl : s.length = s.toList.length := (String.length_toList (s := s)).symm
  rcases h : s.toList with _ | ⟨a, t⟩
  · rw [hl, h]
    simp [validChain, Json.item, h, bind, Except.bind]
  · rcases t with _ | ⟨b, t⟩
    · rw [hl, h]
      have : s.length = 1 := by rw [hl, h]; rfl
      simp [validChain, Json.item, h, Json.len, bind, Except.bind, validLoop, this]
    · have hn : s.length - 1 = t.length + 1 := by rw [hl, h]; simp
      have : s.length ≠ 1 := by omega
      simp only [this, iff_false]
      have e : validChain W (.str s) = validLoop W (.str s) (t.length + 1) 1 (.str (String.ofList [a])) := by
        simp only [validChain, Json.item, h, Json.len, bind, Except.bind, List.getElem?_cons_zero, hn]
      rw [e, validLoop_step]
      rintro ⟨c, hc, ⟨⟨d, hd, _⟩, _⟩, _⟩
      simp only [Json.item, h] at hc
      simp only [List.getElem?_cons_succ, List.getElem?_cons_zero, Except.ok.injEq] at hc
      rw [← hc] at hd
      cases hd

/-- **What `valid_chain` accepts.** -/
theorem validChain_iff (c : Json N) : validChain W c = .ok true ↔
    (∃ l, c = .arr l ∧ l ≠ [] ∧ Links W.hash W.vp l) ∨ ∃ s, c = .str s ∧ s.length = 1 := by
  cases c with
  | arr l => rw [validChain_arr]; simp
  | str s => rw [validChain_str]; simp
  | _ => simp [validChain, Json.item, bind, Except.bind]

/-! ## `resolve_conflicts` -/

/-- What the loop of `resolve_conflicts` ends with: what it began with, or a valid chain of one of the answers. -/
theorem resolveLoop_spec : ∀ (as : List (Answer N)) (m : N) (new r : Option (Json N)), resolveLoop W as m new = .ok r →
    r = new ∨ ∃ c body, r = some c ∧ Answer.answer 200 (.ok body) ∈ as ∧ HasKey body "chain" c ∧ validChain W c = .ok true
  | [], _, _, _, h => by simp only [resolveLoop, Except.ok.injEq] at h; exact .inl h.symm
  | .raises e :: _, _, _, _, h => by simp [resolveLoop] at h
  | .answer st body :: rest, m, new, r, h => by
    have lift : ∀ {m' new'}, resolveLoop W rest m' new' = .ok r → r = new' ∨ ∃ c b, r = some c ∧
        Answer.answer 200 (.ok b) ∈ (Answer.answer st body :: rest) ∧ HasKey b "chain" c ∧ validChain W c = .ok true := by
      intro m' new' h
      rcases resolveLoop_spec rest _ _ _ h with h | ⟨c, b, h1, h2, h3⟩
      · exact .inl h
      · exact .inr ⟨c, b, h1, List.mem_cons_of_mem _ h2, h3⟩
    simp only [resolveLoop] at h
    split at h
    · rename_i hst
      subst hst
      simp only [bind_ok_iff] at h
      obtain ⟨j, hj, len, hlen, c, hc, n, hn, h⟩ := h
      split at h
      · simp only [bind_ok_iff] at h
        obtain ⟨v, hv, h⟩ := h
        split at h
        · rename_i hvt
          rw [hvt] at hv
          rcases lift h with h | h
          · exact .inr ⟨c, j, h, by rw [hj]; exact List.mem_cons_self, key_ok.1 hc, hv⟩
          · exact .inr h
        · exact lift h
      · exact lift h
    · exact lift h

theorem truthy_of_valid {c : Json N} (h : validChain W c = .ok true) : c.truthy = true := by
  rcases (validChain_iff W c).1 h with ⟨l, rfl, hl, _⟩ | ⟨s, rfl, hs⟩
  · cases l <;> simp_all [Json.truthy]
  · have : s.toList.length = 1 := (String.length_toList (s := s)).trans hs
    rcases h : s.toList with _ | ⟨a, t⟩
    · rw [h] at this; simp at this
    · simp [Json.truthy, h]

/-- `resolve_conflicts` leaves the node as it was, or replaces its chain by a valid chain of one of the answers. -/
theorem resolve_spec (s : Node N) (as : List (Answer N)) :
    ((resolve W s as).2 = s ∧ (resolve W s as).1 ≠ .ok true) ∨ ∃ c body, resolve W s as = (.ok true, { s with chain := c }) ∧
      Answer.answer 200 (.ok body) ∈ as ∧ HasKey body "chain" c ∧ validChain W c = .ok true := by
  simp only [resolve]
  cases hl : s.chain.len with
  | error e => exact .inl ⟨rfl, by simp⟩
  | ok n =>
    simp only
    cases hr : resolveLoop W as (W.ofNat n) none with
    | error e => exact .inl ⟨rfl, by simp⟩
    | ok r =>
      rcases resolveLoop_spec W as _ _ _ hr with rfl | ⟨c, body, rfl, h1, h2, h3⟩
      · exact .inl ⟨rfl, by simp⟩
      · exact .inr ⟨c, body, by simp [truthy_of_valid W h3], h1, h2, h3⟩

/-- One answer: adopted exactly when it claims a larger number and its chain is valid. -/
theorem resolve_one (s : Node N) (n : Nat) (hn : s.chain.len = .ok n) (st : Nat) (body c : Json N) (hc : HasKey body "chain" c) :
    (resolve W s [.answer st (.ok body)]).1 = .ok true ↔
      st = 200 ∧ (∃ len m, HasKey body "length" len ∧ len.number W = .ok m ∧ W.lt (W.ofNat n) m = true) ∧ validChain W c = .ok true := by
  have hck := key_ok.2 hc
  by_cases hst : st = 200
  · simp only [resolve, hn, resolveLoop, hst, if_true, bind, Except.bind, hck]
    cases hl : body.key "length" with
    | error e =>
      simp only [true_and, reduceCtorEq, false_iff]
      rintro ⟨⟨len, m, h, _⟩, _⟩
      rw [key_ok.2 h] at hl
      cases hl
    | ok len =>
      have hk : ∀ x, HasKey body "length" x ↔ x = len := fun x => by
        rw [← key_ok, hl]
        exact ⟨fun h => (Except.ok.inj h).symm, fun h => by rw [h]⟩
      simp only [hk]
      cases hm : len.number W with
      | error e => simp [hm]
      | ok m =>
        by_cases hlt : W.lt (W.ofNat n) m = true
        · simp only [hlt, if_true]
          cases hv : validChain W c with
          | error e => simp
          | ok v =>
            cases v with
            | true => simp [truthy_of_valid W hv, hm, hlt]
            | false => simp
        · simp [hlt, hm]
  · simp [resolve, hn, resolveLoop, hst]

/-! ## A usable chain -/

theorem usable_last {c : Json N} (h : Usable c) : ∃ l b p n, c = .arr (l ++ [b]) ∧ c.last = .ok b ∧ b.key "proof" = .ok p ∧
    (∃ i, b.key "index" = .ok i ∧ i.number W = .ok n) := by
  obtain ⟨l, b, rfl, ⟨p, hp⟩, i, hi, hin⟩ := h
  obtain ⟨n, hn⟩ := (number_ok W).2 hin
  exact ⟨l, b, p, n, rfl, by simp [Json.last], key_ok.2 hp, i, key_ok.2 hi, hn⟩

theorem newTransaction_index {s : Node N} {b i : Json N} {n : N} (h1 : s.chain.last = .ok b) (h2 : b.key "index" = .ok i) (h3 : i.number W = .ok n)
    (t : Json N) : newTransaction W s t = (.ok (W.succ n), { s with current := s.current ++ [t] }) := by
  simp [newTransaction, h1, h2, h3, bind, Except.bind]

theorem newTransaction_usable {s : Node N} (h : Usable s.chain) (t : Json N) :
    ∃ n, newTransaction W s t = (.ok n, { s with current := s.current ++ [t] }) := by
  obtain ⟨l, b, p, n, _, h1, _, i, h3, h4⟩ := usable_last W h
  exact ⟨W.succ n, by simp [newTransaction, h1, h3, h4, bind, Except.bind]⟩

theorem usable_block (l : List (Json N)) (i : Nat) (time : N) (txs : List (Json N)) (p : Json N) (prev : String) :
    Usable (.arr (l ++ [block W i time txs p prev])) :=
  ⟨l, _, rfl, ⟨p, _, rfl, rfl⟩, _, ⟨_, rfl, rfl⟩, .inl ⟨_, rfl⟩⟩

/-- `/mine` on a usable chain: a block with the recorded transactions and the reward, or nothing. -/
theorem mine_usable {s : Node N} (h : Usable s.chain) (fuel : Nat) (me : String) (time : N) :
    ∃ l b, s.chain = .arr (l ++ [b]) ∧ ((∃ e, proofOfWork W fuel b = .error e ∧ mine W fuel s me time = (.error e, s)) ∨
      ∃ p, proofOfWork W fuel b = .ok p ∧ mine W fuel s me time = (.ok 200, { s with
        current := [], chain := .arr (l ++ [b] ++ [block W (l.length + 2) time (s.current ++ [reward W me]) (.num (W.ofNat p)) (W.hash b)]) })) := by
  obtain ⟨l, b, p, n, hc, h1, _, _⟩ := usable_last W h
  refine ⟨l, b, hc, ?_⟩
  simp only [mine, h1]
  cases hp : proofOfWork W fuel b with
  | error e => exact .inl ⟨e, rfl, rfl⟩
  | ok p =>
    refine .inr ⟨p, rfl, ?_⟩
    obtain ⟨n, hn⟩ := newTransaction_usable W h (reward W me)
    simp only [hn, newBlock, hc, Json.len]
    simp

/-! ## Request bodies -/

theorem contains_obj (d : List (String × Json N)) (k : String) : (Json.obj d).contains k = .ok true ↔ ∃ v, HasKey (.obj d) k v := by
  simp only [Json.contains, HasKey, Except.ok.injEq]
  cases h : d.lookup k <;> simp [h]

theorem submit_spec (s : Node N) (body : Json N) :
    (∃ a b c, IsTransaction body a b c ∧ submitHandler W s body = match newTransaction W s (transaction a b c) with
      | (.error e, s') => (.error e, s')
      | (.ok n, s') => (.ok (201, some n), s')) ∨
    ((¬ ∃ a b c, IsTransaction body a b c) ∧ (submitHandler W s body = (.ok (400, none), s) ∨ submitHandler W s body = (.error .typeError, s))) := by
  by_cases ht : ∃ a b c, IsTransaction body a b c
  · obtain ⟨a, b, c, h⟩ := ht
    refine .inl ⟨a, b, c, h, ?_⟩
    obtain ⟨h1, h2, h3⟩ := h
    have e : ∀ {k v}, HasKey body k v → body.contains k = .ok true := by
      rintro k v ⟨d, rfl, hd⟩
      simp [Json.contains, hd]
    simp only [submitHandler, hasAll, e h1, e h2, e h3, key_ok.2 h1, key_ok.2 h2, key_ok.2 h3, bind, Except.bind, if_true]
    cases newTransaction W s (transaction a b c) with
    | mk r s' => cases r <;> rfl
  · refine .inr ⟨ht, ?_⟩
    cases body with
    | obj d =>
      have hk : ∀ k, (Json.obj d).contains k = .ok (d.lookup k).isSome := fun _ => rfl
      simp only [submitHandler, hasAll, hk, bind, Except.bind]
      cases h1 : d.lookup "sender" with
      | none => simp
      | some a =>
        cases h2 : d.lookup "recipient" with
        | none => simp
        | some b =>
          cases h3 : d.lookup "amount" with
          | none => simp
          | some c => exact absurd ⟨a, b, c, ⟨_, rfl, h1⟩, ⟨_, rfl, h2⟩, ⟨_, rfl, h3⟩⟩ ht
    | arr l =>
      have hk : ∀ k, (Json.arr l).contains k = .ok (l.any fun a => a.isStr k) := fun _ => rfl
      simp only [submitHandler, hasAll, hk, bind, Except.bind]
      cases (l.any fun a => a.isStr "sender") <;> cases (l.any fun a => a.isStr "recipient") <;>
        cases (l.any fun a => a.isStr "amount") <;> simp [Json.key]
    | str t =>
      have hk : ∀ k, (Json.str t : Json N).contains k = .ok (Json.substring k.toList t.toList) := fun _ => rfl
      simp only [submitHandler, hasAll, hk, bind, Except.bind]
      cases (Json.substring "sender".toList t.toList) <;> cases (Json.substring "recipient".toList t.toList) <;>
        cases (Json.substring "amount".toList t.toList) <;> simp [Json.key]
    | _ => right; simp [submitHandler, hasAll, Json.contains, bind, Except.bind]

/-- A text is a part of another one. -/
theorem substring_iff (s : List Char) : ∀ t, Json.substring s t = true ↔ ∃ a b, t = a ++ s ++ b
  | [] => by
    simp only [Json.substring, List.isEmpty_iff]
    constructor
    · rintro rfl; exact ⟨[], [], rfl⟩
    · rintro ⟨a, b, h⟩
      have := congrArg List.length h
      simp only [List.length_nil, List.length_append] at this
      exact List.length_eq_zero_iff.1 (by omega)
  | c :: t => by
    simp only [Json.substring, Bool.or_eq_true, List.isPrefixOf_iff_prefix, substring_iff s t]
    constructor
    · rintro (⟨b, h⟩ | ⟨a, b, h⟩)
      · exact ⟨[], b, by simpa using h.symm⟩
      · exact ⟨c :: a, b, by simp [h]⟩
    · rintro ⟨a, b, h⟩
      cases a with
      | nil => exact .inl ⟨b, by simpa using h.symm⟩
      | cons d a =>
        simp only [List.cons_append, List.cons.injEq] at h
        exact .inr ⟨a, b, by simpa using h.2⟩

open Classical in
theorem hasAll_str (x : String) : ∀ ks : List String,
    hasAll (.str x : Json N) ks = .ok (decide (∀ k ∈ ks, ∃ a b, x.toList = a ++ k.toList ++ b))
  | [] => by simp [hasAll]
  | k :: ks => by
    have hk : (Json.str x : Json N).contains k = .ok (Json.substring k.toList x.toList) := rfl
    simp only [hasAll, hk, bind, Except.bind, hasAll_str x ks, List.forall_mem_cons]
    by_cases h : Json.substring k.toList x.toList = true
    · simp only [h, if_true, (substring_iff _ _).1 h, true_and]
    · have h' := h
      rw [substring_iff] at h'
      simp only [h, h', false_and, decide_false, Bool.false_eq_true, if_false]

open Classical in
theorem hasAll_arr (l : List (Json N)) : ∀ ks : List String, hasAll (.arr l) ks = .ok (decide (∀ k ∈ ks, Json.str k ∈ l))
  | [] => by simp [hasAll]
  | k :: ks => by
    have hk : (Json.arr l).contains k = .ok (l.any fun a => a.isStr k) := rfl
    have hm : (l.any fun a => a.isStr k) = true ↔ Json.str k ∈ l := by
      simp only [List.any_eq_true, isStr_iff]
      exact ⟨fun ⟨x, h, e⟩ => e ▸ h, fun h => ⟨_, h, rfl⟩⟩
    simp only [hasAll, hk, bind, Except.bind, hasAll_arr l ks, List.forall_mem_cons]
    by_cases h : (l.any fun a => a.isStr k) = true
    · simp only [h, if_true, hm.1 h, true_and]
    · have h' := h
      rw [hm] at h'
      simp [h, h']

theorem registerNode_spec {s s' : Node N} {a : Json N} (h : registerNode W s a = .ok s') :
    s'.chain = s.chain ∧ s'.current = s.current ∧ ∀ x ∈ s.nodes, x ∈ s'.nodes := by
  simp only [registerNode, bind_ok_iff] at h
  obtain ⟨u, _, h⟩ := h
  split at h
  · cases h
    refine ⟨rfl, rfl, fun x hx => ?_⟩
    simp only
    split <;> simp [hx]
  · split at h
    · cases h
      refine ⟨rfl, rfl, fun x hx => ?_⟩
      simp only
      split <;> simp [hx]
    · cases h

theorem registerLoop_spec : ∀ (l : List (Json N)) (s : Node N), (registerLoop W s l).2.chain = s.chain ∧
    (registerLoop W s l).2.current = s.current ∧ ∀ x ∈ s.nodes, x ∈ (registerLoop W s l).2.nodes
  | [], s => ⟨rfl, rfl, fun _ h => h⟩
  | a :: t, s => by
    simp only [registerLoop]
    cases h : registerNode W s a with
    | error e => exact ⟨rfl, rfl, fun _ h => h⟩
    | ok s' =>
      obtain ⟨h1, h2, h3⟩ := registerNode_spec W h
      obtain ⟨g1, g2, g3⟩ := registerLoop_spec t s'
      exact ⟨g1.trans h1, g2.trans h2, fun x hx => g3 x (h3 x hx)⟩

/-- Registering addresses that all parse: each becomes known, and no other. -/
theorem registerLoop_ok (f : Json N → String) : ∀ (l : List (Json N)) (s : Node N),
    (∀ a ∈ l, f a ≠ "" ∧ ∃ path, W.parse a = .ok (f a, path) ∨ (path = f a ∧ W.parse a = .ok ("", path))) →
    (registerLoop W s l).1 = .ok () ∧ ∀ x, x ∈ (registerLoop W s l).2.nodes ↔ x ∈ s.nodes ∨ ∃ a ∈ l, f a = x
  | [], s, _ => ⟨rfl, by simp [registerLoop]⟩
  | a :: t, s, h => by
    obtain ⟨hne, path, hp⟩ := h a (by simp)
    have e : registerNode W s a = .ok { s with nodes := if f a ∈ s.nodes then s.nodes else f a :: s.nodes } := by
      rcases hp with hp | ⟨rfl, hp⟩
      · simp [registerNode, hp, bind, Except.bind, hne]
      · simp [registerNode, hp, bind, Except.bind, hne]
    have ih := registerLoop_ok f t { s with nodes := if f a ∈ s.nodes then s.nodes else f a :: s.nodes } fun b hb => h b (List.mem_cons_of_mem _ hb)
    simp only [registerLoop, e]
    refine ⟨ih.1, fun x => ?_⟩
    rw [ih.2 x]
    by_cases hm : f a ∈ s.nodes
    · simp only [hm, if_true, List.mem_cons, exists_eq_or_imp]
      constructor
      · rintro (h | h)
        · exact .inl h
        · exact .inr (.inr h)
      · rintro (h | h | h)
        · exact .inl h
        · exact .inl (h ▸ hm)
        · exact .inr h
    · simp only [hm, if_false, List.mem_cons, exists_eq_or_imp]
      constructor
      · rintro ((h | h) | h)
        · exact .inr (.inl h.symm)
        · exact .inl h
        · exact .inr (.inr h)
      · rintro (h | h | h)
        · exact .inl (.inr h)
        · exact .inl (.inl h.symm)
        · exact .inr h

theorem register_spec (s : Node N) (body : Json N) : (registerHandler W s body).2.chain = s.chain ∧
    (registerHandler W s body).2.current = s.current ∧ ∀ x ∈ s.nodes, x ∈ (registerHandler W s body).2.nodes := by
  have triv : s.chain = s.chain ∧ s.current = s.current ∧ ∀ x ∈ s.nodes, x ∈ s.nodes := ⟨rfl, rfl, fun _ h => h⟩
  simp only [registerHandler]
  split
  · exact triv
  · exact triv
  · split
    · exact triv
    · rename_i l _
      have := registerLoop_spec W l s
      revert this
      cases registerLoop W s l with
      | mk r s' => cases r <;> exact id

/-! ## Histories -/

/-- The chains in the answers of a history are usable. -/
def Sane (reqs : List (Req N)) : Prop :=
  ∀ as, Req.resolve as ∈ reqs → ∀ body c, Answer.answer 200 (.ok body) ∈ as → HasKey body "chain" c → Usable c

theorem serve_usable (fuel : Nat) {s : Node N} (h : Usable s.chain) (r : Req N) (hr : Sane [r]) : Usable (serve W fuel s r).2.chain := by
  cases r with
  | submit body =>
    have : (serve W fuel s (.submit body)).2 = (submitHandler W s body).2 := by
      simp only [serve]
      cases submitHandler W s body with
      | mk r s' => cases r <;> rfl
    rw [this]
    rcases submit_spec W s body with ⟨a, b, c, _, e⟩ | ⟨_, e | e⟩
    · obtain ⟨n, hn⟩ := newTransaction_usable W h (transaction a b c)
      rw [e, hn]
      exact h
    · rw [e]; exact h
    · rw [e]; exact h
  | mine me time =>
    obtain ⟨l, b, hc, ⟨e, _, he⟩ | ⟨p, _, he⟩⟩ := mine_usable W h fuel me time
    · simp only [serve, he]; exact h
    · simp only [serve, he]; exact usable_block W _ _ _ _ _ _
  | register body =>
    simp only [serve]
    rw [(register_spec W s body).1]
    exact h
  | resolve as =>
    have : (serve W fuel s (.resolve as)).2 = (resolve W s as).2 := by
      simp only [serve]
      cases resolve W s as with
      | mk r s' => cases r <;> rfl
    rw [this]
    rcases resolve_spec W s as with ⟨e, _⟩ | ⟨c, body, e, h1, h2, _⟩
    · rw [e]; exact h
    · rw [e]; exact hr as (by simp) body c h1 h2

theorem serveAll_usable (fuel : Nat) : ∀ (reqs : List (Req N)) {s : Node N}, Usable s.chain → Sane reqs → Usable (serveAll W fuel s reqs).chain
  | [], _, h, _ => h
  | r :: rest, s, h, hs => by
    have h1 := serve_usable W fuel h r fun as hm => hs as (by simp only [List.mem_singleton] at hm; simp [hm])
    exact serveAll_usable fuel rest h1 fun as hm => hs as (List.mem_cons_of_mem _ hm)

theorem init_usable (time : N) : Usable (init W time).chain := usable_block W [] 1 time [] _ "1"

end Verif.ChainJson
