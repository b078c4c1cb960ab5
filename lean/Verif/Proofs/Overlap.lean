import Verif.Proofs.Ledger
import Verif.Spec.Overlap
/-! # Lemmas for C159 -/

namespace Verif.Chain
open Verif.Spec

variable {Tx Hs : Type} [DecidableEq Hs] (C : Crypto Tx Hs)

/-- What a request in progress knows of the chain; the lengths only if the peers are truthful (`T`). -/
def PcOk (T : Prop) (chain : List (Block Tx Hs)) : QPc Tx Hs → Prop
  | .mine pc => ∀ last p, pc.held = some (last, p) → chain.getLast? = some last ∧ C.vp last.proof p (C.hash last) = true
  | .polling m new => (∀ c, new = some c → c ≠ [] ∧ Linked C c) ∧ (T → (chain.length : Int) ≤ m ∧ ∀ c, new = some c → chain.length < c.length)
  | _ => True

omit [DecidableEq Hs] in
theorem pcOk_of_not_busy (T : Prop) (chain : List (Block Tx Hs)) (pc : QPc Tx Hs) (h : ¬ Busy pc) : PcOk C T chain pc := by
  cases pc with
  | new => trivial
  | done => trivial
  | polling m n => exact absurd trivial h
  | mine pc =>
    intro last p hp
    refine absurd ?_ h
    show pc.held ≠ none
    rw [hp]
    simp

/-- The invariant. -/
structure QInv (T : Prop) (c : QConf Tx Hs) : Prop where
  nonempty : c.shared.chain ≠ []
  linked : Linked C c.shared.chain
  threads : ∀ i, PcOk C T c.shared.chain (c.threads i)

omit [DecidableEq Hs] in
theorem qinv_set_same {T : Prop} {c : QConf Tx Hs} (h : QInv C T c) (i : Nat) (s : State Tx Hs) (hs : s.chain = c.shared.chain) (pc : QPc Tx Hs)
    (hpc : PcOk C T c.shared.chain pc) : QInv C T (c.set i s pc) := by
  refine ⟨by show s.chain ≠ []; rw [hs]; exact h.nonempty, by show Linked C s.chain; rw [hs]; exact h.linked, fun j => ?_⟩
  show PcOk C T s.chain (if j = i then pc else c.threads j)
  rw [hs]
  by_cases hj : j = i
  · rw [if_pos hj]; exact hpc
  · rw [if_neg hj]; exact h.threads j

omit [DecidableEq Hs] in
theorem qinv_set_new {T : Prop} {c : QConf Tx Hs} (he : NoOverlap c) (i : Nat) (hi : Busy (c.threads i)) (s : State Tx Hs) (h1 : s.chain ≠ [])
    (h2 : Linked C s.chain) (pc : QPc Tx Hs) (hpc : ¬ Busy pc) : QInv C T (c.set i s pc) := by
  refine ⟨h1, h2, fun j => ?_⟩
  show PcOk C T s.chain (if j = i then pc else c.threads j)
  by_cases hj : j = i
  · rw [if_pos hj]; exact pcOk_of_not_busy C T _ _ hpc
  · rw [if_neg hj]
    exact pcOk_of_not_busy C T _ _ fun hb => hj (he j i hb hi)

theorem qstep_inv (T : Prop) (fuel : Nat) (c : QConf Tx Hs) (ch : QChoice Tx Hs) (h : QInv C T c) (he : NoOverlap c)
    (hT : T → ∀ i l c, ch = .poll i (.answer 200 l c) → l = c.length) :
    QInv C T (qstep C fuel c ch) ∧ (T → c.shared.chain.length ≤ (qstep C fuel c ch).shared.chain.length) := by
  have hne := h.nonempty
  have hstart : ∀ i reward time, QInv C T (c.set i (mineStep C fuel reward time c.shared .start).1 (.mine (mineStep C fuel reward time c.shared .start).2)) ∧
      (mineStep C fuel reward time c.shared .start).1.chain = c.shared.chain := by
    intro i reward time
    unfold mineStep
    rw [List.getLast?_eq_getLast_of_ne_nil hne]
    cases hp : proofOfWork C fuel (c.shared.chain.getLast hne) with
    | error e =>
      simp only [hp]
      exact ⟨qinv_set_same C h i _ rfl _ fun last p hh => by simp [Pc.held] at hh, trivial⟩
    | ok proof =>
      simp only [hp]
      refine ⟨qinv_set_same C h i _ rfl _ fun last p hh => ?_, trivial⟩
      simp only [Pc.held, Option.some.injEq, Prod.mk.injEq] at hh
      obtain ⟨rfl, rfl⟩ := hh
      exact ⟨List.getLast?_eq_getLast_of_ne_nil hne, (powLoop_spec C _ _ _ _ _ hp).1⟩
  cases ch with
  | submit t =>
    obtain ⟨i, hi⟩ := newTransaction_eq c.shared hne t
    simp only [qstep, hi]
    exact ⟨⟨hne, h.linked, h.threads⟩, fun _ => le_rfl⟩
  | mine i reward time =>
    cases hpc : c.threads i with
    | new =>
      simp only [qstep, hpc]
      obtain ⟨h1, h2⟩ := hstart i reward time
      exact ⟨h1, fun _ => by show _ ≤ (mineStep C fuel reward time c.shared .start).1.chain.length; rw [h2]⟩
    | done => simp only [qstep, hpc]; exact ⟨h, fun _ => le_rfl⟩
    | polling m n => simp only [qstep, hpc]; exact ⟨h, fun _ => le_rfl⟩
    | mine pc =>
      have hok := h.threads i
      rw [hpc] at hok
      cases pc with
      | start =>
        simp only [qstep, hpc]
        obtain ⟨h1, h2⟩ := hstart i reward time
        exact ⟨h1, fun _ => by show _ ≤ (mineStep C fuel reward time c.shared .start).1.chain.length; rw [h2]⟩
      | done =>
        simp only [qstep, hpc, mineStep]
        exact ⟨qinv_set_same C h i _ rfl _ hok, fun _ => le_rfl⟩
      | read last proof =>
        obtain ⟨k, hk⟩ := newTransaction_eq c.shared hne reward
        simp only [qstep, hpc, mineStep, hk]
        exact ⟨qinv_set_same C h i ⟨c.shared.current ++ [reward], c.shared.chain, c.shared.nodes⟩ rfl (.mine (.rewarded last proof)) fun l p hh => hok l p hh,
          fun _ => le_rfl⟩
      | rewarded last proof =>
        obtain ⟨h1, h2⟩ := hok last proof rfl
        simp only [qstep, hpc, mineStep, newBlock, bind, Except.bind]
        refine ⟨qinv_set_new C he i (by rw [hpc]; simp [Busy, Pc.held]) _ (by simp) (linked_snoc C _ last _ h.linked h1 rfl h2) _ (by simp [Busy, Pc.held]), fun _ => ?_⟩
        simp [QConf.set]
  | start i =>
    cases hpc : c.threads i with
    | new =>
      simp only [qstep, hpc]
      exact ⟨qinv_set_same C h i _ rfl _ ⟨fun c hc => by simp at hc, fun _ => ⟨le_rfl, fun c hc => by simp at hc⟩⟩, fun _ => le_rfl⟩
    | done => simp only [qstep, hpc]; exact ⟨h, fun _ => le_rfl⟩
    | polling m n => simp only [qstep, hpc]; exact ⟨h, fun _ => le_rfl⟩
    | mine pc => simp only [qstep, hpc]; exact ⟨h, fun _ => le_rfl⟩
  | poll i r =>
    cases hpc : c.threads i with
    | new => simp only [qstep, hpc]; exact ⟨h, fun _ => le_rfl⟩
    | done => simp only [qstep, hpc]; exact ⟨h, fun _ => le_rfl⟩
    | mine pc => simp only [qstep, hpc]; exact ⟨h, fun _ => le_rfl⟩
    | polling m n =>
      have hok := h.threads i
      rw [hpc] at hok
      cases r with
      | raises e => simp only [qstep, hpc]; exact ⟨qinv_set_same C h i _ rfl _ trivial, fun _ => le_rfl⟩
      | answer status length chain =>
        simp only [qstep, hpc]
        by_cases hc : status = 200 ∧ m < length
        · rw [if_pos hc]
          cases hv : validChain C chain with
          | error e => simp only; exact ⟨qinv_set_same C h i _ rfl _ trivial, fun _ => le_rfl⟩
          | ok v =>
            cases v with
            | false => simp only; exact ⟨h, fun _ => le_rfl⟩
            | true =>
              simp only
              refine ⟨qinv_set_same C h i _ rfl _ ⟨fun c' hc' => ?_, fun ht => ?_⟩, fun _ => le_rfl⟩
              · simp only [Option.some.injEq] at hc'
                subst hc'
                exact (validChain_iff C _).1 hv
              · have hl := hT ht i length chain (by rw [hc.1])
                obtain ⟨h1, -⟩ := hok.2 ht
                have h2 : (c.shared.chain.length : Int) < length := lt_of_le_of_lt h1 hc.2
                refine ⟨le_of_lt h2, fun c' hc' => ?_⟩
                simp only [Option.some.injEq] at hc'
                subst hc'
                rw [hl] at h2
                exact_mod_cast h2
        · rw [if_neg hc]; exact ⟨h, fun _ => le_rfl⟩
  | finish i =>
    cases hpc : c.threads i with
    | new => simp only [qstep, hpc]; exact ⟨h, fun _ => le_rfl⟩
    | done => simp only [qstep, hpc]; exact ⟨h, fun _ => le_rfl⟩
    | mine pc => simp only [qstep, hpc]; exact ⟨h, fun _ => le_rfl⟩
    | polling m n =>
      have hok := h.threads i
      rw [hpc] at hok
      rcases n with _ | _ | ⟨b, rest⟩
      · simp only [qstep, hpc]; exact ⟨qinv_set_same C h i _ rfl _ trivial, fun _ => le_rfl⟩
      · simp only [qstep, hpc]; exact ⟨qinv_set_same C h i _ rfl _ trivial, fun _ => le_rfl⟩
      · simp only [qstep, hpc]
        refine ⟨qinv_set_new C he i (by rw [hpc]; trivial) _ (by simp) (hok.1 _ rfl).2 _ (by simp [Busy]), fun ht => ?_⟩
        exact le_of_lt ((hok.2 ht).2 _ rfl)

theorem qrun_inv (T : Prop) (fuel : Nat) (sched : List (QChoice Tx Hs)) : ∀ (c : QConf Tx Hs), QInv C T c →
    (∀ k, NoOverlap (qrun C fuel c (sched.take k))) → (T → Truthful sched) →
    QInv C T (qrun C fuel c sched) ∧ (T → c.shared.chain.length ≤ (qrun C fuel c sched).shared.chain.length) := by
  induction sched with
  | nil => intro c h _ _; exact ⟨h, fun _ => le_rfl⟩
  | cons ch sched ih =>
    intro c h he hT
    obtain ⟨h1, h2⟩ := qstep_inv C T fuel c ch h (he 0) (fun ht i l c' e => hT ht i l c' (by simp [e]))
    obtain ⟨h3, h4⟩ := ih (qstep C fuel c ch) h1 (fun k => he (k + 1)) (fun ht i l c' hm => hT ht i l c' (List.mem_cons_of_mem _ hm))
    exact ⟨h3, fun ht => (h2 ht).trans (h4 ht)⟩

/-- The chain a `/nodes/resolve` request holds is valid, whatever else happens. -/
def PollOk (c : QConf Tx Hs) : Prop := ∀ i m new, c.threads i = .polling m (some new) → validChain C new = .ok true

theorem pollOk_step (fuel : Nat) (c : QConf Tx Hs) (ch : QChoice Tx Hs) (h : PollOk C c) : PollOk C (qstep C fuel c ch) := by
  have hset : ∀ i s pc, (∀ m new, pc = QPc.polling m (some new) → validChain C new = .ok true) → PollOk C (c.set i s pc) := by
    intro i s pc hpc j m new hj
    simp only [QConf.set] at hj
    by_cases hji : j = i
    · rw [if_pos hji] at hj; exact hpc m new hj
    · rw [if_neg hji] at hj; exact h j m new hj
  cases ch with
  | submit t =>
    simp only [qstep]
    split
    · exact fun i m new hi => h i m new hi
    · exact h
  | mine i reward time =>
    simp only [qstep]
    split
    · exact hset _ _ _ (by simp)
    · exact hset _ _ _ (by simp)
    · exact h
  | start i =>
    simp only [qstep]
    split
    · exact hset _ _ _ (by simp)
    · exact h
  | poll i r =>
    simp only [qstep]
    split
    · split
      · exact hset _ _ _ (by simp)
      · split
        · split
          · rename_i hv
            refine hset _ _ _ fun m new e => ?_
            simp only [QPc.polling.injEq, Option.some.injEq] at e
            rw [← e.2]
            exact hv
          · exact h
          · exact hset _ _ _ (by simp)
        · exact h
    · exact h
  | finish i =>
    simp only [qstep]
    split
    · exact hset _ _ _ (by simp)
    · exact hset _ _ _ (by simp)
    · exact h

theorem pollOk_run (fuel : Nat) (sched : List (QChoice Tx Hs)) : ∀ c : QConf Tx Hs, PollOk C c → PollOk C (qrun C fuel c sched) := by
  induction sched with
  | nil => intro c h; exact h
  | cons ch sched ih => intro c h; exact ih _ (pollOk_step C fuel c ch h)

/-- The request a decision is about. -/
def QChoice.thread : QChoice Tx Hs → Option Nat
  | .submit _ => none
  | .mine i _ _ => some i
  | .start i => some i
  | .poll i _ => some i
  | .finish i => some i

theorem qstep_idle (fuel : Nat) (c : QConf Tx Hs) (ch : QChoice Tx Hs) (i : Nat) (h : ch.thread ≠ some i) :
    (qstep C fuel c ch).threads i = c.threads i := by
  cases ch <;> simp only [QChoice.thread, ne_eq, Option.some.injEq] at h <;> simp only [qstep] <;> repeat' split
  all_goals simp [QConf.set, Ne.symm h]

theorem qrun_idle (fuel : Nat) (i : Nat) (sched : List (QChoice Tx Hs)) : ∀ c : QConf Tx Hs, (∀ ch ∈ sched, ch.thread ≠ some i) →
    (qrun C fuel c sched).threads i = c.threads i := by
  induction sched with
  | nil => intro c _; rfl
  | cons ch sched ih =>
    intro c h
    have := ih (qstep C fuel c ch) fun x hx => h x (List.mem_cons_of_mem _ hx)
    rw [show qrun C fuel c (ch :: sched) = qrun C fuel (qstep C fuel c ch) sched from rfl, this, qstep_idle C fuel c ch i (h ch (by simp))]

end Verif.Chain
