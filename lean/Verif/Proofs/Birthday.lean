import Verif.Spec.Provers
import Verif.Proofs.Sampling
import Mathlib.Data.Fintype.BigOperators
import Mathlib.Algebra.BigOperators.Ring.Finset
import Mathlib.Data.Set.Finite.List
import Mathlib.Tactic.FieldSimp
import Mathlib.Tactic.Linarith
import Mathlib.Tactic.Positivity
/-!
# Few calls, few collisions
-/

namespace Verif.Birthday

/-- A program that asks for values of a function from `D` to `B`. -/
inductive Tree (D B : Type)
  | stop : Tree D B
  | ask (x : D) (next : B → Tree D B) : Tree D B

variable {D B : Type}

/-- The arguments asked for. -/
def Tree.queries (H : D → B) : Tree D B → List D
  | .stop => []
  | .ask x next => x :: (next (H x)).queries H

variable [Fintype D] [DecidableEq D] [Fintype B] [DecidableEq B]

/-- The functions that agree with `h` on `known`. -/
def cyl (known : Finset D) (h : D → B) : Finset (D → B) := Finset.univ.filter fun H => ∀ x ∈ known, H x = h x

theorem mem_cyl {known : Finset D} {h H : D → B} : H ∈ cyl known h ↔ ∀ x ∈ known, H x = h x := by simp [cyl]

theorem cyl_insert {known : Finset D} {h : D → B} {x : D} (hx : x ∉ known) (y : B) :
    cyl (insert x known) (Function.update h x y) = (cyl known h).filter fun H => H x = y := by
  ext H
  rw [Finset.mem_filter, mem_cyl, mem_cyl]
  constructor
  · intro hh
    refine ⟨fun z hz => ?_, by simpa using hh x (Finset.mem_insert_self _ _)⟩
    rw [hh z (Finset.mem_insert_of_mem hz), Function.update_of_ne (show z ≠ x from fun e => hx (e ▸ hz))]
  · rintro ⟨h1, h2⟩ z hz
    by_cases e : z = x
    · subst e; simpa using h2
    · rw [Function.update_of_ne e]
      exact h1 z ((Finset.mem_insert.1 hz).resolve_left e)

theorem card_cyl_insert {known : Finset D} {h : D → B} {x : D} (hx : x ∉ known) (y : B) :
    (cyl (insert x known) (Function.update h x y)).card * Fintype.card B = (cyl known h).card := by
  have heq : ∀ y', (cyl (insert x known) (Function.update h x y')).card = (cyl (insert x known) (Function.update h x y)).card := by
    intro y'
    refine Finset.card_bij' (fun H _ => Function.update H x y) (fun H _ => Function.update H x y') ?_ ?_ ?_ ?_
    · intro H hH
      rw [cyl_insert hx, Finset.mem_filter, mem_cyl] at hH ⊢
      exact ⟨fun z hz => by rw [Function.update_of_ne (show z ≠ x from fun e => hx (e ▸ hz))]; exact hH.1 z hz, by simp⟩
    · intro H hH
      rw [cyl_insert hx, Finset.mem_filter, mem_cyl] at hH ⊢
      exact ⟨fun z hz => by rw [Function.update_of_ne (show z ≠ x from fun e => hx (e ▸ hz))]; exact hH.1 z hz, by simp⟩
    · intro H hH
      rw [cyl_insert hx, Finset.mem_filter] at hH
      rw [Function.update_idem, ← hH.2, Function.update_eq_self]
    · intro H hH
      rw [cyl_insert hx, Finset.mem_filter] at hH
      rw [Function.update_idem, ← hH.2, Function.update_eq_self]
  have hsum : (cyl known h).card = ∑ y' : B, ((cyl known h).filter fun H => H x = y').card :=
    Finset.card_eq_sum_card_fiberwise (f := fun H : D → B => H x) (t := Finset.univ) fun _ _ => by simp
  rw [hsum, Finset.sum_congr rfl fun y' _ => by rw [← cyl_insert hx y', heq y'], Finset.sum_const, Finset.card_univ, smul_eq_mul, mul_comm]

/-- Two different strings, among those asked for and those known, have the same value. -/
def Coll (known : Finset D) (t : Tree D B) (H : D → B) : Prop :=
  ∃ a b, (a ∈ known ∨ a ∈ t.queries H) ∧ (b ∈ known ∨ b ∈ t.queries H) ∧ a ≠ b ∧ H a = H b

open Classical in
theorem collisions : ∀ (t : Tree D B) (m : Nat) (known : Finset D) (h : D → B),
    (∀ H ∈ cyl known h, (t.queries H).length ≤ m) → (∀ a ∈ known, ∀ b ∈ known, h a = h b → a = b) →
    ((cyl known h).filter (Coll known t)).card * (2 * Fintype.card B) ≤ (2 * known.card * m + m * (m - 1)) * (cyl known h).card := by
  intro t
  induction t with
  | stop =>
    intro m known h _ hk
    have : (cyl known h).filter (Coll known .stop) = ∅ := by
      rw [Finset.filter_eq_empty_iff]
      rintro H hH ⟨a, b, ha, hb, hne, he⟩
      rw [mem_cyl] at hH
      have ha : a ∈ known := by simpa [Tree.queries] using ha
      have hb : b ∈ known := by simpa [Tree.queries] using hb
      exact hne (hk a ha b hb (by rw [← hH a ha, ← hH b hb, he]))
    rw [this]; simp
  | ask x next ih =>
    intro m known h hm hk
    have hpos : 1 ≤ m := by
      have := hm h (by rw [mem_cyl]; intros; rfl)
      simp only [Tree.queries, List.length_cons] at this
      omega
    obtain ⟨m, rfl⟩ : ∃ m', m = m' + 1 := ⟨m - 1, by omega⟩
    by_cases hx : x ∈ known
    · have hq : ∀ H ∈ cyl known h, (Coll known (.ask x next) H ↔ Coll known (next (h x)) H) := by
        intro H hH
        have e : H x = h x := mem_cyl.1 hH x hx
        have : ∀ a, (a ∈ known ∨ a ∈ (Tree.ask x next).queries H) ↔ (a ∈ known ∨ a ∈ (next (h x)).queries H) := by
          intro a
          simp only [Tree.queries, e, List.mem_cons]
          constructor
          · rintro (h1 | rfl | h1)
            · exact .inl h1
            · exact .inl hx
            · exact .inr h1
          · rintro (h1 | h1)
            · exact .inl h1
            · exact .inr (.inr h1)
        simp only [Coll, this]
      rw [Finset.filter_congr hq]
      have h1 := ih (h x) m known h (fun H hH => by
        have := hm H hH
        rw [Tree.queries, mem_cyl.1 hH x hx, List.length_cons] at this
        omega) hk
      refine le_trans h1 (Nat.mul_le_mul_right _ ?_)
      have : m * (m - 1) ≤ (m + 1) * (m + 1 - 1) := Nat.mul_le_mul (by omega) (by omega)
      nlinarith
    · -- a new argument: sum over the answers
      have hsum : ((cyl known h).filter (Coll known (.ask x next))).card =
          ∑ y : B, (((cyl known h).filter (Coll known (.ask x next))).filter fun H => H x = y).card :=
        Finset.card_eq_sum_card_fiberwise (f := fun H : D → B => H x) (t := Finset.univ) fun _ _ => by simp
      have hfib : ∀ y : B, ((cyl known h).filter (Coll known (.ask x next))).filter (fun H => H x = y) =
          (cyl (insert x known) (Function.update h x y)).filter (Coll (insert x known) (next y)) := by
        intro y
        rw [Finset.filter_comm, ← cyl_insert hx]
        apply Finset.filter_congr
        intro H hH
        rw [cyl_insert hx, Finset.mem_filter] at hH
        have : ∀ a, (a ∈ known ∨ a ∈ (Tree.ask x next).queries H) ↔ (a ∈ insert x known ∨ a ∈ (next y).queries H) := by
          intro a
          rw [Tree.queries, hH.2, List.mem_cons, Finset.mem_insert]
          tauto
        simp only [Coll, this]
      set S := (cyl known h).card with hS
      have hcard : ∀ y, (cyl (insert x known) (Function.update h x y)).card * Fintype.card B = S := fun y => card_cyl_insert hx y
      let bad : Finset B := known.image h
      have hb : bad.card ≤ known.card := Finset.card_image_le
      set c := known.card with hc
      have hterm : ∀ y : B, ((cyl (insert x known) (Function.update h x y)).filter (Coll (insert x known) (next y))).card * (2 * Fintype.card B) ≤
          (if y ∈ bad then 2 * S else 0) + (2 * (c + 1) * m + m * (m - 1)) * (cyl (insert x known) (Function.update h x y)).card := by
        intro y
        by_cases hy : y ∈ bad
        · rw [if_pos hy, ← hcard y]
          have : ((cyl (insert x known) (Function.update h x y)).filter (Coll (insert x known) (next y))).card ≤
            (cyl (insert x known) (Function.update h x y)).card := Finset.card_filter_le _ _
          calc _ ≤ (cyl (insert x known) (Function.update h x y)).card * (2 * Fintype.card B) := Nat.mul_le_mul_right _ this
            _ = 2 * ((cyl (insert x known) (Function.update h x y)).card * Fintype.card B) := by ring
            _ ≤ _ := Nat.le_add_right _ _
        · rw [if_neg hy, zero_add]
          have h1 := ih y m (insert x known) (Function.update h x y) (fun H hH => by
            rw [cyl_insert hx, Finset.mem_filter] at hH
            have := hm H hH.1
            rw [Tree.queries, hH.2, List.length_cons] at this
            omega) (by
            intro a ha b hb he
            rw [Finset.mem_insert] at ha hb
            rcases ha with rfl | ha
            · rcases hb with rfl | hb
              · rfl
              · rw [Function.update_self, Function.update_of_ne (fun e => hx (by rw [← e]; exact hb))] at he
                exact absurd (Finset.mem_image.2 ⟨b, hb, he.symm⟩) hy
            · rcases hb with rfl | hb
              · rw [Function.update_self, Function.update_of_ne (fun e => hx (by rw [← e]; exact ha))] at he
                exact absurd (Finset.mem_image.2 ⟨a, ha, he⟩) hy
              · rw [Function.update_of_ne (show a ≠ x from fun e => hx (e ▸ ha)), Function.update_of_ne (show b ≠ x from fun e => hx (e ▸ hb))] at he
                exact hk a ha b hb he)
          rwa [Finset.card_insert_of_notMem hx] at h1
      rw [hsum, Finset.sum_mul]
      have hN : ∑ y : B, (cyl (insert x known) (Function.update h x y)).card = S := by
        rw [hS, Finset.card_eq_sum_card_fiberwise (f := fun H : D → B => H x) (t := Finset.univ) fun _ _ => by simp]
        exact Finset.sum_congr rfl fun y _ => by rw [cyl_insert hx]
      calc _ = ∑ y : B, ((cyl (insert x known) (Function.update h x y)).filter (Coll (insert x known) (next y))).card * (2 * Fintype.card B) :=
            Finset.sum_congr rfl fun y _ => by rw [hfib]
        _ ≤ ∑ y : B, ((if y ∈ bad then 2 * S else 0) + (2 * (c + 1) * m + m * (m - 1)) * (cyl (insert x known) (Function.update h x y)).card) :=
            Finset.sum_le_sum fun y _ => hterm y
        _ = bad.card * (2 * S) + (2 * (c + 1) * m + m * (m - 1)) * S := by
            rw [Finset.sum_add_distrib, ← Finset.mul_sum, hN, Finset.sum_ite_mem, Finset.univ_inter, Finset.sum_const, smul_eq_mul]
        _ ≤ c * (2 * S) + (2 * (c + 1) * m + m * (m - 1)) * S := by gcongr
        _ = (2 * c * (m + 1) + (m + 1) * (m + 1 - 1)) * S := by
            rw [Nat.add_sub_cancel]
            cases m with
            | zero => simp; ring
            | succ m => rw [Nat.add_sub_cancel]; ring

open Classical in
/-- Among the functions from `D` to `B`, those for which a program that asks at most `m` times comes upon two arguments with the same value
are a fraction of at most `m (m - 1) / 2 |B|`. -/
theorem birthday (t : Tree D B) (m : Nat) (hm : ∀ H, (t.queries H).length ≤ m) :
    (Finset.univ.filter fun H : D → B => ∃ a ∈ t.queries H, ∃ b ∈ t.queries H, a ≠ b ∧ H a = H b).card * (2 * Fintype.card B) ≤
      m * (m - 1) * Fintype.card (D → B) := by
  by_cases hB : Nonempty (D → B)
  · obtain ⟨h⟩ := hB
    have := collisions t m ∅ h (fun H _ => hm H) (by simp)
    have hc : cyl (∅ : Finset D) h = Finset.univ := by ext H; simp [mem_cyl]
    rw [hc] at this
    simp only [Finset.card_empty, mul_zero, zero_mul, zero_add, Finset.card_univ] at this
    refine le_trans (Nat.mul_le_mul_right _ (Finset.card_le_card ?_)) this
    intro H hH
    rw [Finset.mem_filter] at hH ⊢
    obtain ⟨-, a, ha, b, hb, h1, h2⟩ := hH
    exact ⟨Finset.mem_univ _, a, b, .inr ha, .inr hb, h1, h2⟩
  · rw [not_nonempty_iff] at hB
    simp

/-! ### Programs with strings -/

/-- One program after the other. -/
def bind {α β : Type} : Prog α → (α → Prog β) → Prog β
  | .done a, f => f a
  | .ask x next, f => .ask x fun y => bind (next y) f

theorem run_bind {α β : Type} (h : Bytes → Digest) : ∀ (p : Prog α) (f : α → Prog β), (bind p f).run h = (f (p.run h)).run h
  | .done _, _ => rfl
  | .ask x next, f => by simp only [bind, Prog.run]; exact run_bind h (next (h x)) f

theorem asked_bind {α β : Type} (h : Bytes → Digest) : ∀ (p : Prog α) (f : α → Prog β), (bind p f).asked h = p.asked h ++ (f (p.run h)).asked h
  | .done _, _ => rfl
  | .ask x next, f => by simp only [bind, Prog.run, Prog.asked, List.cons_append]; rw [asked_bind h (next (h x)) f]

/-- The program on short strings: longer strings are answered by `other`. -/
def short {α : Type} (n : Nat) (other : Bytes → Digest) : Prog α → Tree (Short n) Digest
  | .done _ => .stop
  | .ask x next => if h : x.length ≤ n then .ask ⟨x, h⟩ fun y => short n other (next y) else short n other (next (other x))

theorem short_queries {α : Type} {n : Nat} (other : Bytes → Digest) (H : Short n → Digest) : ∀ p : Prog α,
    ((short n other p).queries H).length ≤ (p.asked (drawn H other)).length ∧
    ∀ x (hx : x.length ≤ n), x ∈ p.asked (drawn H other) → ⟨x, hx⟩ ∈ (short n other p).queries H
  | .done _ => by simp [short, Tree.queries, Prog.asked]
  | .ask x next => by
    have ih := short_queries other H (next (drawn H other x))
    by_cases h : x.length ≤ n
    · have e : drawn H other x = H ⟨x, h⟩ := by simp [drawn, h]
      simp only [short, h, dif_pos, Tree.queries, Prog.asked, List.length_cons]
      rw [← e]
      refine ⟨by omega, fun z hz hm => ?_⟩
      rw [List.mem_cons] at hm ⊢
      rcases hm with rfl | hm
      · exact .inl rfl
      · exact .inr (ih.2 z hz hm)
    · have e : drawn H other x = other x := by simp [drawn, h]
      simp only [short, h, dif_neg, not_false_iff, Prog.asked, List.length_cons]
      rw [e] at ih ⊢
      refine ⟨by omega, fun z hz hm => ?_⟩
      rw [List.mem_cons] at hm
      rcases hm with rfl | hm
      · exact absurd hz h
      · exact ih.2 z hz hm

noncomputable instance (n : Nat) : Fintype (Short n) := (List.finite_length_le UInt8 n).fintype

open Classical in
/-- A program that hashes at most `m` strings comes upon two with the same hash with probability at most `m (m - 1) / 2^257`. -/
theorem prog_collision {α : Type} (n m : Nat) (other : Bytes → Digest) (p : Prog α)
    (hm : ∀ H : Short n → Digest, (p.asked (drawn H other)).length ≤ m) (E : (Short n → Digest) → Prop)
    (hE : ∀ H, E H → ∃ a ∈ p.asked (drawn H other), ∃ b ∈ p.asked (drawn H other), a.length ≤ n ∧ b.length ≤ n ∧ a ≠ b ∧
      drawn H other a = drawn H other b) : fraction E ≤ (m * (m - 1) : ℚ) / 2 ^ 257 := by
  have key := birthday (short n other p) m fun H => le_trans (short_queries other H p).1 (hm H)
  refine le_trans (Sampling.fraction_mono (Q := fun H => ∃ a ∈ (short n other p).queries H, ∃ b ∈ (short n other p).queries H, a ≠ b ∧ H a = H b) ?_) ?_
  · intro H hH
    obtain ⟨a, ha, b, hb, hla, hlb, hne, he⟩ := hE H hH
    refine ⟨_, (short_queries other H p).2 a hla ha, _, (short_queries other H p).2 b hlb hb, fun e => hne (congrArg Subtype.val e), ?_⟩
    simpa [drawn, hla, hlb] using he
  · rw [Sampling.fraction_eq]
    rw [Sampling.card_digest] at key
    have hpos : 0 < Fintype.card (Short n → Digest) := Fintype.card_pos_iff.2 ⟨fun x => other x.1⟩
    rw [div_le_div_iff₀ (by exact_mod_cast hpos) (by positivity)]
    have hcast : ((m * (m - 1) : ℕ) : ℚ) = (m : ℚ) * (m - 1) := by
      cases m with
      | zero => simp
      | succ m => push_cast [Nat.add_sub_cancel]; ring
    rw [← hcast]
    have e : (2 : ℕ) * 2 ^ 256 = 2 ^ 257 := (pow_succ' 2 256).symm
    rw [e] at key
    exact_mod_cast key

end Verif.Birthday
