import Verif.Proofs.ColoringZK
import Verif.Spec.ColoringSession
/-! # Histories of calls on a prover and a verifier of the 3-colouring protocol -/

namespace Verif.Color
open Commit Bbs Spec

variable {S T : Type} [DecidableEq T]

omit [DecidableEq T] in
theorem after_append (owp : S → T) (hp : S → Nat) (s : Prover S × Verifier T) (a b : List (Call S T)) :
    after owp hp s (a ++ b) = after owp hp (after owp hp s a) b := List.foldl_append ..

omit [DecidableEq T] in
/-- The arguments of the constructors do not change. -/
theorem after_args (owp : S → T) (hp : S → Nat) : ∀ (a : List (Call S T)) (s : Prover S × Verifier T),
    (after owp hp s a).1.graph = s.1.graph ∧ (after owp hp s a).1.coloring = s.1.coloring ∧ (after owp hp s a).2.graph = s.2.graph
  | [], _ => ⟨rfl, rfl, rfl⟩
  | x :: a, s => by
    obtain ⟨h1, h2, h3⟩ := after_args owp hp a (step owp hp s x)
    have e : after owp hp s (x :: a) = after owp hp (step owp hp s x) a := rfl
    rw [e, h1, h2, h3]
    cases x with
    | choose c d =>
      refine ⟨rfl, rfl, ?_⟩
      simp only [step, Verifier.choose]
      split <;> rfl
    | _ => exact ⟨rfl, rfl, rfl⟩

omit [DecidableEq T] in
theorem after_prover (owp : S → T) (hp : S → Nat) : ∀ (a : List (Call S T)) (s : Prover S × Verifier T), (∀ x ∈ a, ¬ x.IsCommit) →
    (after owp hp s a).1 = s.1
  | [], _, _ => rfl
  | x :: a, s, h => by
    have e : after owp hp s (x :: a) = after owp hp (step owp hp s x) a := rfl
    rw [e, after_prover owp hp a _ fun y hy => h y (List.mem_cons_of_mem _ hy)]
    have := h x (List.mem_cons_self ..)
    cases x with
    | commit => exact absurd trivial this
    | _ => rfl

omit [DecidableEq T] in
theorem after_verifier (owp : S → T) (hp : S → Nat) : ∀ (a : List (Call S T)) (s : Prover S × Verifier T), (∀ x ∈ a, ¬ x.IsChoose) →
    (after owp hp s a).2 = s.2
  | [], _, _ => rfl
  | x :: a, s, h => by
    have e : after owp hp s (x :: a) = after owp hp (step owp hp s x) a := rfl
    rw [e, after_verifier owp hp a _ fun y hy => h y (List.mem_cons_of_mem _ hy)]
    have := h x (List.mem_cons_self ..)
    cases x with
    | choose => exact absurd trivial this
    | _ => rfl

omit [DecidableEq T] in
theorem schemes_after (owp : S → T) (hp : S → Nat) (s : Prover S × Verifier T) (a b : List (Call S T)) (perm : List Int)
    (secrets : Int → List S) (hb : ∀ x ∈ b, ¬ x.IsCommit) :
    (after owp hp s (a ++ .commit perm secrets :: b)).1 = ⟨s.1.graph, s.1.coloring, some secrets⟩ := by
  rw [after_append]
  show (after owp hp (step owp hp (after owp hp s a) (.commit perm secrets)) b).1 = _
  rw [after_prover owp hp b _ hb]
  obtain ⟨h1, h2, -⟩ := after_args owp hp a s
  show (⟨(after owp hp s a).1.graph, (after owp hp s a).1.coloring, some secrets⟩ : Prover S) = _
  rw [h1, h2]

omit [DecidableEq T] in
theorem chosen_after (owp : S → T) (hp : S → Nat) (s : Prover S × Verifier T) (g g' : List (Call S T)) (c : List (Int × List (T × Nat)))
    (draw : Nat) (hs : s.2.graph ≠ []) (hg : ∀ x ∈ g', ¬ x.IsChoose) :
    ∃ e ∈ s.2.graph, ((after owp hp s g).2.choose c draw).2 = .ok (min e.1 e.2, max e.1 e.2) ∧
      (after owp hp s (g ++ .choose c draw :: g')).2 = ⟨s.2.graph, some c, some (min e.1 e.2, max e.1 e.2)⟩ := by
  obtain ⟨-, -, h3⟩ := after_args owp hp g s
  have hlt : draw % s.2.graph.length < s.2.graph.length := Nat.mod_lt _ (List.length_pos_of_ne_nil hs)
  refine ⟨s.2.graph[draw % s.2.graph.length], List.getElem_mem hlt, ?_, ?_⟩
  · unfold Verifier.choose
    rw [h3]
    simp only [sortEdges, List.getElem?_map, List.getElem?_eq_getElem hlt, Option.map_some]
  · rw [after_append]
    show (after owp hp (step owp hp (after owp hp s g) (.choose c draw)) g').2 = _
    rw [after_verifier owp hp g' _ hg]
    simp only [step, Verifier.choose]
    rw [h3]
    simp only [sortEdges, List.getElem?_map, List.getElem?_eq_getElem hlt, Option.map_some]

omit [DecidableEq T] in
theorem reveal_edge {n : Nat} {G : List (Int × Int)} (hG : IsTop n G) (secrets : Int → List S) (u v : Int) (h : Adj G u v) :
    revealColors G secrets u v = .ok (secrets (min u v), secrets (max u v)) := by
  rcases h with h | h
  · exact revealColors_eq hG secrets _ h
  · have := revealColors_eq hG secrets _ h
    simp only at this
    rw [min_comm, max_comm] at this
    rw [← this]
    unfold revealColors
    rw [min_comm, max_comm]

omit [DecidableEq T] in
theorem mem_sortEdges {G : List (Int × Int)} (u v : Int) : (min u v, max u v) ∈ sortEdges G ↔ Adj G u v := by
  constructor
  · intro h
    obtain ⟨e, he, heq⟩ := List.mem_map.1 h
    simp only [Prod.mk.injEq] at heq
    have : e.1 = u ∧ e.2 = v ∨ e.1 = v ∧ e.2 = u := by omega
    rcases this with ⟨rfl, rfl⟩ | ⟨rfl, rfl⟩
    · exact .inl he
    · exact .inr he
  · rintro (h | h)
    · exact List.mem_map.2 ⟨_, h, rfl⟩
    · exact List.mem_map.2 ⟨_, h, by simp [min_comm, max_comm]⟩

theorem verify_two (owp : S → T) (hp : S → Nat) (s s' : S × S) (x : Int) :
    verifyInt owp hp 2 [s'.1, s'.2] (cells owp hp s x) = decide (owp s.1 = owp s'.1 ∧ owp s.2 = owp s'.2) := by
  rw [Bool.eq_iff_iff, decide_eq_true_iff]
  simp only [verifyInt, cells, List.zipWith_cons_cons, List.zipWith_nil_right, List.take_succ_cons, List.take_zero, List.all_cons,
    List.all_nil, id, Bool.and_true, Bool.and_eq_true, verifyBit_iff]

omit [DecidableEq T] in
theorem decode_two (owp : S → T) (hp : S → Nat) (hb : ∀ s, hp s ≤ 1) (s s' : S × S) (x : Int) (h0 : 0 ≤ x) (h2 : x ≤ 2) :
    ∃ y, decodeInt hp 2 [s'.1, s'.2] (cells owp hp s x) = .ok y := by
  have key : ∀ a b c : Nat, a ≤ 1 → b ≤ 1 → c ≤ 1 → a ^^^ b ^^^ c ≤ 1 := by
    intro a b c ha hb hc
    interval_cases a <;> interval_cases b <;> interval_cases c <;> decide
  have k1 := key (hp s.1) (x / 2).toNat (hp s'.1) (hb _) (by omega) (hb _)
  have k2 := key (hp s.2) (x % 2).toNat (hp s'.2) (hb _) (by omega) (hb _)
  simp only [decodeInt, decodeBits, cells, List.zipWith_cons_cons, List.zipWith_nil_right, List.take_succ_cons, List.take_zero,
    decodeBit, List.flatMap_cons, List.flatMap_nil]
  generalize hp s.1 ^^^ (x / 2).toNat ^^^ hp s'.1 = a at *
  generalize hp s.2 ^^^ (x % 2).toNat ^^^ hp s'.2 = b at *
  interval_cases a <;> interval_cases b <;> exact ⟨_, rfl⟩

/-- An opening with other secrets than those of the commitments. -/
theorem accepts_stale (owp : S → T) (hp : S → Nat) (hb : ∀ s, hp s ≤ 1) (n : Nat) (x : Int → Int) (hx : ∀ v, 0 ≤ x v ∧ x v ≤ 2)
    (sec sec' : Int → S × S) (e : Int × Int) (he : (1 ≤ e.1 ∧ e.1 ≤ n) ∧ 1 ≤ e.2 ∧ e.2 ≤ n)
    (h : ∃ w, (w = e.1 ∨ w = e.2) ∧ (two sec w).map owp ≠ (two sec' w).map owp) :
    accepts owp hp ((vertices n).map fun v => (v, cells owp hp (sec v) (x v))) e (two sec' e.1, two sec' e.2) = .ok false := by
  unfold accepts
  rw [lookup_vertices n _ _ he.1, lookup_vertices n _ _ he.2]
  obtain ⟨y1, d1⟩ := decode_two owp hp hb (sec e.1) (sec' e.1) (x e.1) (hx _).1 (hx _).2
  obtain ⟨y2, d2⟩ := decode_two owp hp hb (sec e.2) (sec' e.2) (x e.2) (hx _).1 (hx _).2
  have v1 := verify_two owp hp (sec e.1) (sec' e.1) (x e.1)
  have v2 := verify_two owp hp (sec e.2) (sec' e.2) (x e.2)
  simp only [bind, Except.bind, two, d1, d2, v1, v2]
  by_cases h1 : owp (sec e.1).1 = owp (sec' e.1).1 ∧ owp (sec e.1).2 = owp (sec' e.1).2
  · rw [if_pos (by simpa using h1), if_neg]
    simp only [decide_eq_true_eq]
    intro h2
    obtain ⟨w, rfl | rfl, hw⟩ := h
    · exact hw (by simp [two, h1])
    · exact hw (by simp [two, h2])
  · rw [if_neg (by simpa using h1)]

/-- A comprehension whose body either gives a value or raises one exception raises it, if one of the elements does. -/
theorem pyMap_keyError {α β : Type _} {f : α → Py β} {e : PyErr} : ∀ {l : List α}, (∀ a ∈ l, (∃ b, f a = .ok b) ∨ f a = .error e) →
    (∃ a ∈ l, f a = .error e) → PolyUtils.pyMap f l = .error e
  | [], _, h => by simp at h
  | a :: l, h1, h2 => by
    rcases h1 a (by simp) with ⟨b, hb⟩ | he
    · have : ∃ a ∈ l, f a = .error e := by
        obtain ⟨x, hx, hxe⟩ := h2
        rcases List.mem_cons.1 hx with rfl | hx
        · rw [hb] at hxe; cases hxe
        · exact ⟨x, hx, hxe⟩
      simp only [PolyUtils.pyMap, hb, pyMap_keyError (fun x hx => h1 x (by simp [hx])) this, bind, Except.bind]
    · simp only [PolyUtils.pyMap, he, bind, Except.bind]

end Verif.Color
