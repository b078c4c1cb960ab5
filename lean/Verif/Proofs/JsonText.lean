import Verif.Model.ChainHash
import Verif.Spec.JsonText
import Mathlib.Data.String.Basic
import Mathlib.Data.List.Sort
import Mathlib.Data.List.Perm.Basic
import Mathlib.Tactic.SplitIfs
/-!
# The text of a JSON value determines it
-/

namespace Verif.ChainHash
open Verif.ChainJson Verif.Spec.ChainJson

/-! ### Strings -/

theorem hexDigit_inj : ∀ a < 16, ∀ b < 16, hexDigit a = hexDigit b → a = b := by decide +kernel

theorem u4_inj {n m : Nat} (hn : n < 65536) (hm : m < 65536) {r r' : Bytes} (h : u4 n ++ r = u4 m ++ r') : n = m ∧ r = r' := by
  simp only [u4, List.cons_append, List.nil_append, List.cons.injEq, true_and] at h
  obtain ⟨h1, h2, h3, h4, h5⟩ := h
  have h1 := hexDigit_inj _ (by omega) _ (by omega) h1
  have h2 := hexDigit_inj _ (by omega) _ (by omega) h2
  have h3 := hexDigit_inj _ (by omega) _ (by omega) h3
  have h4 := hexDigit_inj _ (by omega) _ (by omega) h4
  exact ⟨by omega, h5⟩

theorem byte_inj {a b : Nat} (ha : a < 256) (hb : b < 256) (h : UInt8.ofNat a = UInt8.ofNat b) : a = b := by
  have := congrArg UInt8.toNat h
  simpa [UInt8.toNat_ofNat', Nat.mod_eq_of_lt ha, Nat.mod_eq_of_lt hb] using this

/-- The kinds of text a character can have. -/
theorem escape_cases (n : Nat) :
    ((n, escape n) ∈ [(34, ([92, 34] : Bytes)), (92, [92, 92]), (10, [92, 110]), (13, [92, 114]), (9, [92, 116]), (12, [92, 102]), (8, [92, 98])]) ∨
    (n ≠ 34 ∧ n ≠ 92 ∧ n < 256 ∧ escape n = [UInt8.ofNat n]) ∨
    (n < 65536 ∧ escape n = u4 n) ∨
    (65536 ≤ n ∧ escape n = u4 (55296 + (n - 65536) / 1024 % 1024) ++ u4 (56320 + (n - 65536) % 1024)) := by
  unfold escape
  split_ifs with h1 h2 h3 h4 h5 h6 h7 h8 h9
  any_goals (left; subst_vars; decide)
  · exact .inr (.inl ⟨h1, h2, by omega, rfl⟩)
  · exact .inr (.inr (.inl ⟨h9, rfl⟩))
  · exact .inr (.inr (.inr ⟨by omega, rfl⟩))

theorem escape_head (n : Nat) : ∃ c t, escape n = c :: t ∧ c ≠ 34 := by
  rcases escape_cases n with h | ⟨h1, h2, h3, h⟩ | ⟨h1, h⟩ | ⟨h1, h⟩
  · simp only [List.mem_cons, Prod.mk.injEq, List.not_mem_nil, or_false] at h
    rcases h with h | h | h | h | h | h | h <;> exact ⟨_, _, h.2, by decide⟩
  · exact ⟨_, _, h, fun e => h1 (byte_inj h3 (by omega) e)⟩
  · exact ⟨_, _, h, by decide⟩
  · exact ⟨_, _, h, by decide⟩

/-- A code point that is a character: no half of a pair. -/
def Valid (n : Nat) : Prop := n < 55296 ∨ (57343 < n ∧ n < 1114112)

theorem short_escape {n : Nat} (h : (n, escape n) ∈ [(34, ([92, 34] : Bytes)), (92, [92, 92]), (10, [92, 110]), (13, [92, 114]), (9, [92, 116]), (12, [92, 102]),
    (8, [92, 98])]) : ∃ c, escape n = [92, c] ∧ c ≠ 117 ∧ (n, c) ∈ [(34, (34 : UInt8)), (92, 92), (10, 110), (13, 114), (9, 116), (12, 102), (8, 98)] := by
  simp only [List.mem_cons, Prod.mk.injEq, List.not_mem_nil, or_false] at h
  rcases h with h | h | h | h | h | h | h <;> exact ⟨_, h.2, by decide, by rw [h.1]; decide⟩

theorem escape_inj {n m : Nat} (hn : Valid n) (hm : Valid m) {r r' : Bytes} (h : escape n ++ r = escape m ++ r') : n = m ∧ r = r' := by
  unfold Valid at hn hm
  have hb : ∀ k : Nat, k ≠ 92 → k < 256 → UInt8.ofNat k ≠ 92 := fun k h1 h2 e => h1 (byte_inj h2 (by omega) e)
  rcases escape_cases n with e | ⟨e1, e2, e3, e⟩ | ⟨e1, e⟩ | ⟨e1, e⟩
  · obtain ⟨c, e, hc, e'⟩ := short_escape e
    rcases escape_cases m with f | ⟨f1, f2, f3, f⟩ | ⟨f1, f⟩ | ⟨f1, f⟩
    · obtain ⟨d, f, hd, f'⟩ := short_escape f
      rw [e, f] at h
      simp only [List.cons_append, List.nil_append, List.cons.injEq, true_and] at h
      obtain ⟨rfl, rfl⟩ := h
      refine ⟨?_, rfl⟩
      simp only [List.mem_cons, Prod.mk.injEq, List.not_mem_nil, or_false] at e' f'
      rcases e' with ⟨rfl, rfl⟩ | ⟨rfl, rfl⟩ | ⟨rfl, rfl⟩ | ⟨rfl, rfl⟩ | ⟨rfl, rfl⟩ | ⟨rfl, rfl⟩ | ⟨rfl, rfl⟩ <;> revert f' <;> simp <;> intro h <;> exact h.symm
    · rw [e, f] at h
      simp only [List.cons_append, List.cons.injEq] at h
      exact absurd h.1.symm (hb m f2 f3)
    · rw [e, f] at h
      simp only [u4, List.cons_append, List.cons.injEq, true_and] at h
      exact absurd h.1 hc
    · rw [e, f] at h
      simp only [u4, List.cons_append, List.cons.injEq, true_and] at h
      exact absurd h.1 hc
  · rcases escape_cases m with f | ⟨f1, f2, f3, f⟩ | ⟨f1, f⟩ | ⟨f1, f⟩
    · obtain ⟨d, f, -, -⟩ := short_escape f
      rw [e, f] at h
      simp only [List.cons_append, List.cons.injEq] at h
      exact absurd h.1 (hb n e2 e3)
    · rw [e, f] at h
      simp only [List.cons_append, List.nil_append, List.cons.injEq] at h
      exact ⟨byte_inj e3 f3 h.1, h.2⟩
    · rw [e, f] at h
      simp only [u4, List.cons_append, List.cons.injEq] at h
      exact absurd h.1 (hb n e2 e3)
    · rw [e, f] at h
      simp only [u4, List.cons_append, List.cons.injEq] at h
      exact absurd h.1 (hb n e2 e3)
  · rcases escape_cases m with f | ⟨f1, f2, f3, f⟩ | ⟨f1, f⟩ | ⟨f1, f⟩
    · obtain ⟨d, f, hd, -⟩ := short_escape f
      rw [e, f] at h
      simp only [u4, List.cons_append, List.cons.injEq, true_and] at h
      exact absurd h.1.symm hd
    · rw [e, f] at h
      simp only [u4, List.cons_append, List.cons.injEq] at h
      exact absurd h.1.symm (hb m f2 f3)
    · rw [e, f] at h
      exact u4_inj e1 f1 h
    · rw [e, f, List.append_assoc] at h
      have := (u4_inj e1 (by omega) h).1
      omega
  · rcases escape_cases m with f | ⟨f1, f2, f3, f⟩ | ⟨f1, f⟩ | ⟨f1, f⟩
    · obtain ⟨d, f, hd, -⟩ := short_escape f
      rw [e, f] at h
      simp only [u4, List.cons_append, List.cons.injEq, true_and] at h
      exact absurd h.1.symm hd
    · rw [e, f] at h
      simp only [u4, List.cons_append, List.cons.injEq] at h
      exact absurd h.1.symm (hb m f2 f3)
    · rw [e, f, List.append_assoc] at h
      have := (u4_inj (by omega) f1 h).1
      omega
    · rw [e, f, List.append_assoc, List.append_assoc] at h
      obtain ⟨h1, h⟩ := u4_inj (by omega) (by omega) h
      obtain ⟨h2, h⟩ := u4_inj (by omega) (by omega) h
      exact ⟨by omega, h⟩

theorem char_valid (c : Char) : Valid c.toNat := by
  have := c.valid
  simp only [Valid, Char.toNat]
  rcases this with h | ⟨h1, h2⟩
  · left; exact h
  · right; exact ⟨by omega, h2⟩

theorem chars_inj : ∀ (l l' : List Char) (r r' : Bytes),
    l.flatMap (fun c => escape c.toNat) ++ 34 :: r = l'.flatMap (fun c => escape c.toNat) ++ 34 :: r' → l = l' ∧ r = r'
  | [], [], r, r', h => by simpa using h
  | [], c :: l', r, r', h => by
    obtain ⟨d, t, e, hd⟩ := escape_head c.toNat
    simp only [List.flatMap_nil, List.nil_append, List.flatMap_cons, e, List.cons_append, List.cons.injEq] at h
    exact absurd h.1.symm hd
  | c :: l, [], r, r', h => by
    obtain ⟨d, t, e, hd⟩ := escape_head c.toNat
    simp only [List.flatMap_nil, List.nil_append, List.flatMap_cons, e, List.cons_append, List.cons.injEq] at h
    exact absurd h.1 hd
  | c :: l, c' :: l', r, r', h => by
    simp only [List.flatMap_cons, List.append_assoc] at h
    obtain ⟨h1, h2⟩ := escape_inj (char_valid c) (char_valid c') h
    obtain ⟨h3, h4⟩ := chars_inj l l' r r' h2
    exact ⟨by rw [Char.toNat_inj.1 h1, h3], h4⟩

theorem strText_inj {s s' : String} {r r' : Bytes} (h : strText s ++ r = strText s' ++ r') : s = s' ∧ r = r' := by
  simp only [strText, List.cons_append, List.append_assoc, List.nil_append, List.cons.injEq, true_and] at h
  obtain ⟨h1, h2⟩ := chars_inj _ _ _ _ h
  exact ⟨String.toList_inj.1 h1, h2⟩

/-! ### Dictionaries -/

section
variable {β : Type}

theorem lookup_if (k x : String) (v : β) (l : List (String × β)) : ((x, v) :: l).lookup k = if k = x then some v else l.lookup k := by
  rw [List.lookup_cons]
  by_cases h : k = x
  · simp [h]
  · have : (k == x) = false := by simpa using h
    rw [this, if_neg h]

theorem dedupe_map {γ : Type} (f : β → γ) : ∀ l : List (String × β), dedupe (l.map fun e => (e.1, f e.2)) = (dedupe l).map fun e => (e.1, f e.2)
  | [] => rfl
  | e :: l => by
    simp only [List.map_cons, dedupe, dedupe_map f l, List.filter_map]
    rfl

theorem insertKey_map {γ : Type} (f : β → γ) (e : String × β) : ∀ l : List (String × β),
    insertKey (e.1, f e.2) (l.map fun e => (e.1, f e.2)) = (insertKey e l).map fun e => (e.1, f e.2)
  | [] => rfl
  | e' :: l => by
    simp only [List.map_cons, insertKey]
    split
    · rfl
    · rw [insertKey_map f e l]; rfl

theorem sortKeys_map {γ : Type} (f : β → γ) : ∀ l : List (String × β), sortKeys (l.map fun e => (e.1, f e.2)) = (sortKeys l).map fun e => (e.1, f e.2)
  | [] => rfl
  | e :: l => by
    simp only [List.map_cons, sortKeys, sortKeys_map f l]
    exact insertKey_map f e _

theorem lookup_map {γ : Type} (f : β → γ) (k : String) : ∀ l : List (String × β), (l.map fun e => (e.1, f e.2)).lookup k = (l.lookup k).map f
  | [] => rfl
  | e :: l => by
    obtain ⟨k', v⟩ := e
    simp only [List.map_cons, lookup_if, lookup_map f k l]
    split <;> rfl

theorem lookup_filter (k k' : String) : ∀ l : List (String × β), (l.filter fun e => e.1 ≠ k').lookup k = if k = k' then none else l.lookup k
  | [] => by simp
  | (x, v) :: l => by
    have ih := lookup_filter k k' l
    by_cases hx : x = k'
    · subst hx
      rw [List.filter_cons_of_neg (by simp), ih]
      split
      · rfl
      · rename_i h; simp [lookup_if, h]
    · rw [List.filter_cons_of_pos (by simpa using hx), lookup_if, ih, lookup_if]
      by_cases hk : k = x
      · subst hk; simp [hx]
      · simp [hk]

theorem lookup_dedupe (k : String) : ∀ l : List (String × β), (dedupe l).lookup k = l.lookup k
  | [] => rfl
  | (x, v) :: l => by
    rw [dedupe, lookup_if, lookup_filter, lookup_dedupe k l, lookup_if]
    by_cases hk : k = x
    · simp [hk]
    · simp [hk]

theorem lookup_insertKey (k : String) (e : String × β) : ∀ l : List (String × β), l.lookup e.1 = none →
    (insertKey e l).lookup k = if k = e.1 then some e.2 else l.lookup k
  | [], _ => by
    obtain ⟨x, v⟩ := e
    by_cases h : k = x <;> simp [insertKey, lookup_if, h]
  | (y, w) :: l, hl => by
    obtain ⟨x, v⟩ := e
    have hxy : x ≠ y := by rintro rfl; simp at hl
    have hl' : l.lookup x = none := by simpa [lookup_if, hxy] using hl
    rw [insertKey]
    split
    · by_cases h : k = x <;> simp [lookup_if, h]
    · rw [lookup_if, lookup_insertKey k (x, v) l hl', lookup_if]
      by_cases h : k = y
      · subst h; simp [Ne.symm hxy]
      · simp [h]

/-- No key twice. -/
def NodupKeys (l : List (String × β)) : Prop := (l.map Prod.fst).Nodup

theorem lookup_none {k : String} : ∀ {l : List (String × β)}, l.lookup k = none ↔ k ∉ l.map Prod.fst
  | [] => by simp
  | (x, v) :: l => by
    rw [lookup_if]
    by_cases h : k = x
    · simp [h]
    · simp [h, lookup_none (l := l)]

theorem dedupe_nodup : ∀ l : List (String × β), NodupKeys (dedupe l)
  | [] => List.nodup_nil
  | e :: l => by
    unfold NodupKeys
    rw [dedupe, List.map_cons, List.nodup_cons]
    constructor
    · intro h
      obtain ⟨e', h1, h2⟩ := List.mem_map.1 h
      exact absurd h2 (by simpa using (List.mem_filter.1 h1).2)
    · exact (dedupe_nodup l).sublist (List.filter_sublist.map _)

theorem insertKey_perm (e : String × β) : ∀ l : List (String × β), (insertKey e l).Perm (e :: l)
  | [] => List.Perm.refl _
  | e' :: l => by
    rw [insertKey]
    split
    · exact List.Perm.refl _
    · exact ((insertKey_perm e l).cons e').trans (List.Perm.swap e e' l)

theorem sortKeys_perm : ∀ l : List (String × β), (sortKeys l).Perm l
  | [] => List.Perm.refl _
  | e :: l => (insertKey_perm e _).trans ((sortKeys_perm l).cons e)

theorem lookup_sortKeys (k : String) : ∀ l : List (String × β), NodupKeys l → (sortKeys l).lookup k = l.lookup k
  | [], _ => rfl
  | (x, v) :: l, h => by
    have h' : x ∉ l.map Prod.fst ∧ NodupKeys l := List.nodup_cons.1 h
    rw [sortKeys, lookup_insertKey k (x, v) (sortKeys l) (by rw [lookup_sortKeys x l h'.2, lookup_none]; exact h'.1), lookup_sortKeys k l h'.2, lookup_if]

theorem lookup_sorted (k : String) (l : List (String × β)) : (sortKeys (dedupe l)).lookup k = l.lookup k := by
  rw [lookup_sortKeys k _ (dedupe_nodup l), lookup_dedupe]

/-- In increasing order of the keys. -/
def Increasing (l : List (String × β)) : Prop := l.Pairwise fun a b => a.1 < b.1

theorem insertKey_increasing (e : String × β) : ∀ l : List (String × β), Increasing l → e.1 ∉ l.map Prod.fst → Increasing (insertKey e l)
  | [], _, _ => List.pairwise_singleton _ _
  | e' :: l, h, he => by
    have h' := List.pairwise_cons.1 h
    rw [insertKey]
    split
    · rename_i hlt
      refine List.pairwise_cons.2 ⟨fun x hx => ?_, h⟩
      rcases List.mem_cons.1 hx with rfl | hx
      · exact hlt
      · exact lt_trans hlt (h'.1 x hx)
    · rename_i hlt
      rw [List.map_cons, List.mem_cons, not_or] at he
      refine List.pairwise_cons.2 ⟨fun x hx => ?_, insertKey_increasing e l h'.2 he.2⟩
      rcases List.mem_cons.1 ((insertKey_perm e l).subset hx) with rfl | hx
      · exact lt_of_le_of_ne (not_lt.1 hlt) (Ne.symm he.1)
      · exact h'.1 x hx

theorem sortKeys_increasing : ∀ l : List (String × β), NodupKeys l → Increasing (sortKeys l)
  | [], _ => List.Pairwise.nil
  | e :: l, h => by
    have h' : e.1 ∉ l.map Prod.fst ∧ NodupKeys l := List.nodup_cons.1 h
    refine insertKey_increasing e _ (sortKeys_increasing l h'.2) fun hm => h'.1 ?_
    exact ((sortKeys_perm l).map Prod.fst).subset hm

theorem increasing_eq : ∀ l l' : List (String × β), Increasing l → Increasing l' → (∀ k, l.lookup k = l'.lookup k) → l = l'
  | [], [], _, _, _ => rfl
  | [], (x, v) :: l', _, _, h => by simpa [lookup_if] using h x
  | (x, v) :: l, [], _, _, h => by simpa [lookup_if] using h x
  | (x, v) :: l, (y, w) :: l', h1, h2, h => by
    have h1' := List.pairwise_cons.1 h1
    have h2' := List.pairwise_cons.1 h2
    have hxy : x = y := by
      by_contra hne
      have hx := h x
      have hy := h y
      rw [lookup_if, lookup_if, if_pos rfl, if_neg hne] at hx
      rw [lookup_if, lookup_if, if_pos rfl, if_neg (Ne.symm hne)] at hy
      have m1 : x ∈ l'.map Prod.fst := by
        by_contra hm
        rw [lookup_none.2 hm] at hx
        cases hx
      have m2 : y ∈ l.map Prod.fst := by
        by_contra hm
        rw [lookup_none.2 hm] at hy
        cases hy
      obtain ⟨e, he, he'⟩ := List.mem_map.1 m1
      obtain ⟨f, hf, hf'⟩ := List.mem_map.1 m2
      have a1 := h2'.1 e he
      have a2 := h1'.1 f hf
      rw [he'] at a1
      rw [hf'] at a2
      exact lt_asymm a1 a2
    subst hxy
    have hv : v = w := by simpa [lookup_if] using h x
    subst hv
    have n1 : l.lookup x = none := lookup_none.2 fun hm => by
      obtain ⟨e, he, he'⟩ := List.mem_map.1 hm
      exact lt_irrefl x (by have := h1'.1 e he; rwa [he'] at this)
    have n2 : l'.lookup x = none := lookup_none.2 fun hm => by
      obtain ⟨e, he, he'⟩ := List.mem_map.1 hm
      exact lt_irrefl x (by have := h2'.1 e he; rwa [he'] at this)
    rw [increasing_eq l l' h1'.2 h2'.2 fun k => ?_]
    by_cases hk : k = x
    · rw [hk, n1, n2]
    · simpa [lookup_if, hk] using h k

end

/-! ### Lists of texts -/

/-- What can follow the text of a value. -/
def End (r : Bytes) : Prop := r = [] ∨ ∃ c t, r = c :: t ∧ (c = 44 ∨ c = 93 ∨ c = 125)

theorem joinItems_inj {α : Type} (f : α → Bytes) (R : α → α → Prop) (close : UInt8) (hc : close = 93 ∨ close = 125)
    (hf : ∀ x, ∃ c t, f x = c :: t ∧ c ≠ 93 ∧ c ≠ 125) : ∀ (xs ys : List α),
    (∀ x ∈ xs, ∀ y ∈ ys, ∀ r r', End r → End r' → f x ++ r = f y ++ r' → R x y ∧ r = r') →
    ∀ r r', joinItems (xs.map f) ++ close :: r = joinItems (ys.map f) ++ close :: r' → List.Forall₂ R xs ys ∧ r = r' := by
  have hcl : ∀ x t r, f x ++ t ≠ close :: r := by
    intro x t r h
    obtain ⟨c, t', e, h1, h2⟩ := hf x
    rw [e] at h
    simp only [List.cons_append, List.cons.injEq] at h
    rcases hc with rfl | rfl
    · exact h1 h.1
    · exact h2 h.1
  have hj : ∀ x (l : List α), ∃ t, joinItems ((x :: l).map f) = f x ++ t := by
    intro x l
    cases l with
    | nil => exact ⟨[], by simp [joinItems]⟩
    | cons y l => exact ⟨_, by simp only [List.map_cons, joinItems]; rfl⟩
  have hend : ∀ r, End (close :: r) := fun r => .inr ⟨_, _, rfl, by rcases hc with h | h <;> simp [h]⟩
  intro xs
  induction xs with
  | nil =>
    intro ys _ r r' h
    cases ys with
    | nil => simp only [List.map_nil, joinItems, List.nil_append, List.cons.injEq, true_and] at h; exact ⟨.nil, h⟩
    | cons y ys =>
      obtain ⟨t, e⟩ := hj y ys
      rw [e, List.append_assoc] at h
      exact absurd h.symm (hcl y _ r)
  | cons x xs ih =>
    intro ys hR r r' h
    cases ys with
    | nil =>
      obtain ⟨t, e⟩ := hj x xs
      rw [e, List.append_assoc] at h
      exact absurd h (hcl x _ r')
    | cons y ys =>
      have hxy := hR x (by simp) y (by simp)
      cases xs with
      | nil =>
        cases ys with
        | nil =>
          simp only [List.map_cons, List.map_nil, joinItems] at h
          obtain ⟨h1, h2⟩ := hxy _ _ (hend r) (hend r') h
          exact ⟨.cons h1 .nil, by simpa using h2⟩
        | cons y' ys =>
          simp only [List.map_cons, List.map_nil, joinItems, List.append_assoc, List.cons_append] at h
          obtain ⟨-, h2⟩ := hxy _ _ (hend r) (.inr ⟨_, _, rfl, .inl rfl⟩) h
          rcases hc with rfl | rfl <;> simp at h2
      | cons x' xs =>
        cases ys with
        | nil =>
          simp only [List.map_cons, List.map_nil, joinItems, List.append_assoc, List.cons_append] at h
          obtain ⟨-, h2⟩ := hxy _ _ (.inr ⟨_, _, rfl, .inl rfl⟩) (hend r') h
          rcases hc with rfl | rfl <;> simp at h2
        | cons y' ys =>
          simp only [List.map_cons, joinItems, List.append_assoc, List.cons_append] at h
          obtain ⟨h1, h2⟩ := hxy _ _ (.inr ⟨_, _, rfl, .inl rfl⟩) (.inr ⟨_, _, rfl, .inl rfl⟩) h
          simp only [List.cons.injEq, true_and] at h2
          obtain ⟨h3, h4⟩ := ih (y' :: ys) (fun a ha b hb => hR a (by simp [List.mem_cons.1 ha]) b (by simp [List.mem_cons.1 hb])) r r' (by
            simpa only [List.map_cons] using h2)
          exact ⟨.cons h1 h3, h4⟩

/-! ### Values -/

variable {N : Type} {num : N → Bytes}

theorem dumpsList_eq : ∀ l : List (Json N), dumpsList num l = l.map (dumps num)
  | [] => rfl
  | a :: l => by rw [dumpsList, dumpsList_eq l, List.map_cons]

theorem dumpsEntries_eq : ∀ l : List (String × Json N), dumpsEntries num l = l.map fun e => (e.1, dumps num e.2)
  | [] => rfl
  | (k, a) :: l => by rw [dumpsEntries, dumpsEntries_eq l, List.map_cons]

theorem dumps_arr (l : List (Json N)) : dumps num (.arr l) = 91 :: (joinItems (l.map (dumps num)) ++ [93]) := by rw [dumps, dumpsList_eq]

/-- The text of a dictionary in terms of its entries. -/
theorem dumps_obj (d : List (String × Json N)) : dumps num (.obj d) =
    123 :: (joinItems ((sortKeys (dedupe d)).map fun e => strText e.1 ++ 58 :: 32 :: dumps num e.2) ++ [125]) := by
  rw [dumps, objText, dumpsEntries_eq, dedupe_map, sortKeys_map, List.map_map]
  rfl

theorem dumps_head (hn : NumberTexts num) (a : Json N) : ∃ c t, dumps num a = c :: t ∧
    match a with
    | .null => c = 110
    | .bool true => c = 116
    | .bool false => c = 102
    | .num _ => (48 ≤ c ∧ c ≤ 57 ∨ c = 45 ∨ c = 73 ∨ c = 78)
    | .str _ => c = 34
    | .arr _ => c = 91
    | .obj _ => c = 123 := by
  cases a with
  | null => exact ⟨_, _, rfl, rfl⟩
  | bool b => cases b <;> exact ⟨_, _, rfl, rfl⟩
  | num n => simpa only [dumps] using hn.head n
  | str s => exact ⟨_, _, rfl, rfl⟩
  | arr l => exact ⟨_, _, dumps_arr l, rfl⟩
  | obj d => exact ⟨_, _, dumps_obj d, rfl⟩

theorem num_end (hn : NumberTexts num) (n m : N) {r r' : Bytes} (hr : End r) (hr' : End r') (h : num n ++ r = num m ++ r') : n = m ∧ r = r' := by
  have stop : ∀ r : Bytes, End r → ∀ c ∈ r.head?, c = 44 ∨ c = 93 ∨ c = 125 := by
    rintro r (rfl | ⟨c, t, rfl, h⟩) d hd
    · simp at hd
    · simp only [List.head?_cons, Option.mem_some_iff] at hd; exact hd ▸ h
  have key : ∀ (l l' r r' : Bytes), (∀ c ∈ l, c ≠ 44 ∧ c ≠ 93 ∧ c ≠ 125) → (∀ c ∈ l', c ≠ 44 ∧ c ≠ 93 ∧ c ≠ 125) → End r → End r' →
      l ++ r = l' ++ r' → l = l' ∧ r = r' := by
    intro l
    induction l with
    | nil =>
      intro l' r r' _ h2 h3 h4 h
      cases l' with
      | nil => exact ⟨rfl, h⟩
      | cons c l' =>
        simp only [List.nil_append, List.cons_append] at h
        have := stop r h3 c (by rw [h]; simp)
        have := h2 c (by simp)
        tauto
    | cons c l ih =>
      intro l' r r' h1 h2 h3 h4 h
      cases l' with
      | nil =>
        simp only [List.nil_append, List.cons_append] at h
        have := stop r' h4 c (by rw [← h]; simp)
        have := h1 c (by simp)
        tauto
      | cons c' l' =>
        simp only [List.cons_append, List.cons.injEq] at h
        obtain ⟨rfl, h⟩ := h
        obtain ⟨rfl, rfl⟩ := ih l' r r' (fun d hd => h1 d (by simp [hd])) (fun d hd => h2 d (by simp [hd])) h3 h4 h
        exact ⟨rfl, rfl⟩
  obtain ⟨h1, h2⟩ := key _ _ _ _ (hn.plain n) (hn.plain m) hr hr' h
  exact ⟨hn.inj n m h1, h2⟩

theorem forall₂_lookup {d d' : List (String × Json N)} (h : List.Forall₂ (fun e e' => e.1 = e'.1 ∧ Same e.2 e'.2) d d') (k : String) :
    (d.lookup k).isSome = (d'.lookup k).isSome ∧ ∀ a a', d.lookup k = some a → d'.lookup k = some a' → Same a a' := by
  induction h with
  | nil => simp
  | cons hR _ ih =>
    rename_i e e' l l' _
    obtain ⟨x, v⟩ := e
    obtain ⟨x', v'⟩ := e'
    obtain ⟨rfl, hs⟩ := hR
    simp only [lookup_if]
    by_cases hk : k = x
    · simp only [hk, if_true, Option.isSome_some, true_and, Option.some.injEq]
      rintro a a' rfl rfl
      exact hs
    · simpa only [hk, if_false] using ih

theorem mem_sorted_sizeOf {d : List (String × Json N)} {e : String × Json N} (h : e ∈ sortKeys (dedupe d)) : e ∈ d := by
  have h := (sortKeys_perm _).subset h
  clear * - h
  induction d with
  | nil => exact h
  | cons x d ih =>
    rw [dedupe, List.mem_cons] at h
    rcases h with rfl | h
    · exact List.mem_cons_self
    · exact List.mem_cons_of_mem _ (ih (List.mem_filter.1 h).1)

theorem dumps_inj (hn : NumberTexts num) (a b : Json N) (r r' : Bytes) (hr : End r) (hr' : End r') (h : dumps num a ++ r = dumps num b ++ r') :
    Same a b ∧ r = r' := by
  obtain ⟨c, t, e, hc⟩ := dumps_head hn a
  obtain ⟨c', t', e', hc'⟩ := dumps_head hn b
  have hcc : c = c' := by
    rw [e, e'] at h
    exact (List.cons.inj h).1
  subst hcc
  have h0 := h
  match a, b with
  | .null, .null => exact ⟨.null, by simpa [dumps] using h⟩
  | .bool true, .bool true => exact ⟨.bool _, by simpa [dumps] using h⟩
  | .bool false, .bool false => exact ⟨.bool _, by simpa [dumps] using h⟩
  | .num n, .num m =>
    simp only [dumps] at h
    obtain ⟨rfl, h2⟩ := num_end hn n m hr hr' h
    exact ⟨.num _, h2⟩
  | .str s, .str s' =>
    simp only [dumps] at h
    obtain ⟨rfl, h2⟩ := strText_inj h
    exact ⟨.str _, h2⟩
  | .arr l, .arr l' =>
    rw [dumps_arr, dumps_arr] at h
    simp only [List.cons_append, List.append_assoc, List.nil_append, List.cons.injEq, true_and] at h
    obtain ⟨h1, h2⟩ := joinItems_inj (dumps num) Same 93 (.inl rfl) (fun x => by
      obtain ⟨c, t, e, hc⟩ := dumps_head hn x
      refine ⟨c, t, e, ?_⟩
      rcases x with _ | (_ | _) | _ | _ | _ | _ <;> simp only at hc
      any_goals (subst hc; decide)
      rcases hc with ⟨-, hc⟩ | rfl | rfl | rfl
      · exact ⟨fun e => by subst e; exact absurd hc (by decide), fun e => by subst e; exact absurd hc (by decide)⟩
      all_goals decide) l l' (fun x hx y hy r r' hr hr' h => dumps_inj hn x y r r' hr hr' h) r r' h
    refine ⟨.arr h1.length_eq fun i a a' ha ha' => ?_, h2⟩
    obtain ⟨hi, rfl⟩ := List.getElem?_eq_some_iff.1 ha
    obtain ⟨hi', rfl⟩ := List.getElem?_eq_some_iff.1 ha'
    exact List.Forall₂.get h1 hi hi'
  | .obj d, .obj d' =>
    rw [dumps_obj, dumps_obj] at h
    simp only [List.cons_append, List.append_assoc, List.nil_append, List.cons.injEq, true_and] at h
    obtain ⟨h1, h2⟩ := joinItems_inj (fun e : String × Json N => strText e.1 ++ 58 :: 32 :: dumps num e.2) (fun e e' => e.1 = e'.1 ∧ Same e.2 e'.2) 125 (.inr rfl)
      (fun x => ⟨_, _, rfl, by decide, by decide⟩) (sortKeys (dedupe d)) (sortKeys (dedupe d')) (fun x hx y hy r r' hr hr' h => by
        have hx' := mem_sorted_sizeOf hx
        simp only [List.append_assoc, List.cons_append] at h
        obtain ⟨e1, h⟩ := strText_inj h
        simp only [List.cons.injEq, true_and] at h
        obtain ⟨e2, h⟩ := dumps_inj hn x.2 y.2 r r' hr hr' h
        exact ⟨⟨e1, e2⟩, h⟩) r r' h
    refine ⟨.obj (fun k => ?_) fun k a a' ha ha' => ?_, h2⟩
    · rw [← lookup_sorted k d, ← lookup_sorted k d']
      exact (forall₂_lookup h1 k).1
    · rw [← lookup_sorted k d] at ha
      rw [← lookup_sorted k d'] at ha'
      exact (forall₂_lookup h1 k).2 a a' ha ha'
  termination_by sizeOf a
  decreasing_by
  · simp only [Json.arr.sizeOf_spec]
    have := List.sizeOf_lt_of_mem hx
    omega
  · simp only [Json.obj.sizeOf_spec]
    have := List.sizeOf_lt_of_mem hx'
    obtain ⟨k, v⟩ := x
    simp only [Prod.mk.sizeOf_spec] at this
    simp only
    omega

theorem dumps_same {a b : Json N} (h : Same a b) : dumps num a = dumps num b := by
  induction h with
  | null => rfl
  | bool b => rfl
  | num n => rfl
  | str s => rfl
  | arr hl _ ih =>
    rename_i l l' _
    rw [dumps_arr, dumps_arr]
    congr 3
    refine List.ext_getElem (by simpa using hl) fun i h1 h2 => ?_
    rw [List.getElem_map, List.getElem_map]
    rw [List.length_map] at h1 h2
    exact ih i _ _ (List.getElem?_eq_getElem h1) (List.getElem?_eq_getElem h2)
  | obj hk _ ih =>
    rename_i d d' _
    have key : sortKeys (dedupe (dumpsEntries num d)) = sortKeys (dedupe (dumpsEntries num d')) := by
      refine increasing_eq _ _ (sortKeys_increasing _ (dedupe_nodup _)) (sortKeys_increasing _ (dedupe_nodup _)) fun k => ?_
      rw [lookup_sorted, lookup_sorted, dumpsEntries_eq, dumpsEntries_eq, lookup_map, lookup_map]
      have hk := hk k
      cases h1 : d.lookup k with
      | none => rw [h1] at hk; cases h2 : d'.lookup k with
        | none => rfl
        | some a' => rw [h2] at hk; cases hk
      | some a => rw [h1] at hk; cases h2 : d'.lookup k with
        | none => rw [h2] at hk; cases hk
        | some a' => exact congrArg some (ih k a a' h1 h2)
    rw [dumps, dumps, objText, objText, key]

end Verif.ChainHash
