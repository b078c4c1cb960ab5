import Verif.Model.Numbertype
import Mathlib.Data.List.Basic
/-! # Memoisation: invariants of the cache -/

namespace Verif
variable {A K V B : Type _} [DecidableEq A] [DecidableEq K] {hashable : A → Bool} {f : Nat → Call A K V → Py B}

omit [DecidableEq A] [DecidableEq K] in
theorem lookup_self {α β : Type _} [BEq α] [LawfulBEq α] (k : α) (b : β) (l : List (α × β)) :
    List.lookup k ((k, b) :: l) = some b := by
  rw [List.lookup_cons]; simp

omit [DecidableEq A] [DecidableEq K] in
theorem lookup_ne {α β : Type _} [BEq α] [LawfulBEq α] {k k' : α} (h : k ≠ k') (b : β) (l : List (α × β)) :
    List.lookup k ((k', b) :: l) = List.lookup k l := by
  rw [List.lookup_cons, beq_false_of_ne h]

/-- Reachable states: the cache holds exactly the successful evaluations in the log, and no tuple was evaluated again after
it succeeded. -/
structure Memo.Inv (f : Nat → Call A K V → Py B) (st : Memo A K V B) : Prop where
  sound : ∀ key b, st.cache.lookup key = some b → ∃ (k : Nat) (c : Call A K V), st.log[k]? = some c ∧ c.argTuple = key ∧ f k c = .ok b
  complete : ∀ (k : Nat) (c : Call A K V) b, st.log[k]? = some c → f k c = .ok b → st.cache.lookup c.argTuple = some b
  once : ∀ (k l : Nat) (c c' : Call A K V) b, k < l → st.log[k]? = some c → st.log[l]? = some c' → c.argTuple = c'.argTuple → f k c ≠ .ok b

theorem Memo.inv_empty : Memo.Inv f ⟨[], []⟩ :=
  ⟨fun _ _ h => by simp at h, fun _ _ _ h => by simp at h, fun _ _ _ _ _ _ h => by simp at h⟩

omit [DecidableEq A] [DecidableEq K] in
theorem log_snoc {log : List (Call A K V)} {c d : Call A K V} {k : Nat} (h : (log ++ [c])[k]? = some d) :
    (k < log.length ∧ log[k]? = some d) ∨ (k = log.length ∧ d = c) := by
  rcases Nat.lt_trichotomy k log.length with h1 | h1 | h1
  · left; rw [List.getElem?_append_left h1] at h; exact ⟨h1, h⟩
  · right; subst h1; simp at h; exact ⟨rfl, h.symm⟩
  · rw [List.getElem?_append_right (by omega), List.getElem?_eq_none (by simp; omega)] at h; simp at h

theorem memoCall_inv {st : Memo A K V B} (h : st.Inv f) (c : Call A K V) : (memoCall hashable f st c).2.Inv f := by
  unfold memoCall
  split
  · split
    · exact h
    · next hnone =>
      have hnot : ∀ (k : Nat) (c' : Call A K V) b, st.log[k]? = some c' → c'.argTuple = c.argTuple → f k c' ≠ .ok b := by
        intro k c' b h1 h2 h3
        have := h.complete k c' b h1 h3
        rw [h2, hnone] at this; simp at this
      split
      · next b hb =>
        constructor
        · intro key b' hl
          by_cases hk : key = c.argTuple
          · subst hk
            rw [lookup_self] at hl
            simp at hl
            subst hl
            exact ⟨st.log.length, c, by simp, rfl, hb⟩
          · rw [lookup_ne hk] at hl
            obtain ⟨k, c', h1, h2, h3⟩ := h.sound key b' hl
            have : k < st.log.length := (List.getElem?_eq_some_iff.mp h1).1
            exact ⟨k, c', by rw [List.getElem?_append_left this]; exact h1, h2, h3⟩
        · intro k d b' h1 h2
          rcases log_snoc h1 with ⟨_, h1⟩ | ⟨rfl, rfl⟩
          · by_cases hk : d.argTuple = c.argTuple
            · exact absurd h2 (hnot k d b' h1 hk)
            · rw [lookup_ne hk]; exact h.complete k d b' h1 h2
          · rw [hb] at h2; simp at h2; subst h2; exact lookup_self _ _ _
        · intro k l d d' b' hkl h1 h2 h3
          rcases log_snoc h1 with ⟨_, g1⟩ | ⟨h1, _⟩
          · rcases log_snoc h2 with ⟨_, g2⟩ | ⟨_, rfl⟩
            · exact h.once k l d d' b' hkl g1 g2 h3
            · exact hnot k d b' g1 h3
          · have : l < (st.log ++ [c]).length := (List.getElem?_eq_some_iff.mp h2).1
            simp at this; omega
      · next e he =>
        constructor
        · intro key b' hl
          obtain ⟨k, c', h1, h2, h3⟩ := h.sound key b' hl
          have : k < st.log.length := (List.getElem?_eq_some_iff.mp h1).1
          exact ⟨k, c', by rw [List.getElem?_append_left this]; exact h1, h2, h3⟩
        · intro k d b' h1 h2
          rcases log_snoc h1 with ⟨_, h1⟩ | ⟨rfl, rfl⟩
          · exact h.complete k d b' h1 h2
          · rw [he] at h2; simp at h2
        · intro k l d d' b' hkl h1 h2 h3
          rcases log_snoc h1 with ⟨_, g1⟩ | ⟨h1, _⟩
          · rcases log_snoc h2 with ⟨_, g2⟩ | ⟨_, rfl⟩
            · exact h.once k l d d' b' hkl g1 g2 h3
            · exact hnot k d b' g1 h3
          · have : l < (st.log ++ [c]).length := (List.getElem?_eq_some_iff.mp h2).1
            simp at this; omega
  · exact h

theorem memoRun_inv : ∀ (cs : List (Call A K V)) (st : Memo A K V B), st.Inv f → (memoRun hashable f st cs).2.Inv f
  | [], _, h => h
  | c :: cs, st, h => memoRun_inv cs _ (memoCall_inv h c)

theorem memoCall_lookup_mono {st : Memo A K V B} (c : Call A K V) {key b} (h : st.cache.lookup key = some b) :
    (memoCall hashable f st c).2.cache.lookup key = some b := by
  unfold memoCall
  split
  · split
    · exact h
    · next hnone =>
      split
      · by_cases hk : key = c.argTuple
        · subst hk; rw [hnone] at h; simp at h
        · show List.lookup key (_ :: _) = _
          rw [lookup_ne hk]; exact h
      · exact h
  · exact h

theorem memoRun_lookup_mono : ∀ (cs : List (Call A K V)) (st : Memo A K V B) {key b},
    st.cache.lookup key = some b → (memoRun hashable f st cs).2.cache.lookup key = some b
  | [], _, _, _, h => h
  | c :: cs, _, _, _, h => memoRun_lookup_mono cs _ (memoCall_lookup_mono c h)

theorem memoCall_ok {st : Memo A K V B} {c : Call A K V} {b : B} (h : (memoCall hashable f st c).1 = .ok b) :
    c.args.all hashable = true ∧ (memoCall hashable f st c).2.cache.lookup c.argTuple = some b := by
  unfold memoCall at h ⊢
  split at h
  · next hh =>
    refine ⟨hh, ?_⟩
    rw [if_pos hh]
    split at h
    · next b' hb' => simp at h; subst h; simp [hb']
    · next hnone =>
      split at h
      · next b' hb' => simp at h; subst h; exact lookup_self _ _ _
      · simp at h
  · simp at h

theorem memoCall_of_lookup {st : Memo A K V B} {c : Call A K V} {b : B} (hh : c.args.all hashable = true)
    (h : st.cache.lookup c.argTuple = some b) : (memoCall hashable f st c) = (.ok b, st) := by
  unfold memoCall
  rw [if_pos hh, h]

omit [DecidableEq A] [DecidableEq K] in
theorem argTuple_pos {c d : Call A K V} (hc : c.kwargs = []) (hd : d.kwargs = []) (h : c.argTuple = d.argTuple) : c = d := by
  obtain ⟨a, k⟩ := c; obtain ⟨a', k'⟩ := d
  simp only at hc hd; subst hc; subst hd
  simp only [Call.argTuple, List.map_nil, List.append_nil] at h
  rw [List.map_injective_iff.mpr (fun _ _ h => MemoKey.pos.inj h) h]

theorem memoCall_log_mem {st : Memo A K V B} {c d : Call A K V} (h : d ∈ (memoCall hashable f st c).2.log) :
    d ∈ st.log ∨ d = c := by
  unfold memoCall at h
  split at h
  · split at h
    · exact Or.inl h
    · split at h <;> simpa using h
  · exact Or.inl h

theorem memoRun_log_mem : ∀ (cs : List (Call A K V)) (st : Memo A K V B) (d : Call A K V),
    d ∈ (memoRun hashable f st cs).2.log → d ∈ st.log ∨ d ∈ cs
  | [], _, _, h => Or.inl h
  | c :: cs, st, d, h => by
    rcases memoRun_log_mem cs _ d h with h | h
    · rcases memoCall_log_mem h with h | h
      · exact Or.inl h
      · exact Or.inr (by simp [h])
    · exact Or.inr (by simp [h])

end Verif
