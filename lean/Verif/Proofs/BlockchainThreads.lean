import Verif.Model.BlockchainThreads
import Verif.Proofs.Blockchain
import Verif.Spec.ChainThreads
/-! # Uninterrupted requests of the fine-grained model are the atomic ones -/

namespace Verif.Chain
open Spec

variable {Tx Hs : Type} (C : Crypto Tx Hs)

/-- The references are in the heap, and the list being filled belongs to no block. -/
def HWf (s : HState Tx Hs) : Prop := s.cur < s.heap.length ∧ ∀ b ∈ s.chain, b.ref < s.heap.length ∧ b.ref ≠ s.cur

theorem hinit_wf (time : Nat) : HWf (hinit C time : HState Tx Hs) := by
  refine ⟨by simp [hinit], ?_⟩
  intro b hb
  simp [hinit] at hb
  subst hb
  simp [hinit]

theorem append_deref (s : HState Tx Hs) (t : Tx) (b : HBlock Hs) (hb : b.ref ≠ s.cur) : (s.append s.cur t).deref b = s.deref b := by
  simp only [HState.deref, HState.append, List.getD_eq_getElem?_getD]
  rw [List.getElem?_set_ne hb.symm]

theorem append_view (s : HState Tx Hs) (hs : HWf s) (t : Tx) :
    (s.append s.cur t).view = { s.view with current := s.view.current ++ [t] } := by
  unfold HState.view
  congr 1
  · simp only [HState.append, List.getD_eq_getElem?_getD]
    rw [List.getElem?_set_self hs.1]
    simp
  · apply List.map_congr_left
    intro b hb
    exact append_deref s t b (hs.2 b hb).2

theorem append_wf (s : HState Tx Hs) (hs : HWf s) (t : Tx) : HWf (s.append s.cur t) := by
  refine ⟨by simpa [HState.append] using hs.1, fun b hb => ?_⟩
  simpa [HState.append] using hs.2 b hb

theorem view_chain_ne (s : HState Tx Hs) : s.view.chain = [] ↔ s.chain = [] := by simp [HState.view]

theorem getD_append_left (h : List (List Tx)) (i : Nat) (hi : i < h.length) : (h ++ [[]]).getD i [] = h.getD i [] := by
  simp only [List.getD_eq_getElem?_getD]
  rw [List.getElem?_append_left hi]

/-- `/transactions/new` uninterrupted -/
theorem hrun_submit [DecidableEq Hs] (fuel : Nat) (s : HState Tx Hs) (hs : HWf s) (hn : s.chain ≠ []) (t : Tx) :
    (hrun C fuel s (.submit t)).2 = .done ∧ HWf (hrun C fuel s (.submit t)).1 ∧ (hrun C fuel s (.submit t)).1.chain ≠ [] ∧
      (hrun C fuel s (.submit t)).1.view = serve C fuel s.view (.submit t) := by
  have e : hrun C fuel s (.submit t) = (s.append s.cur t, .done) := by simp [hrun, List.range_succ, hstep]
  rw [e]
  refine ⟨rfl, append_wf s hs t, hn, ?_⟩
  rw [append_view s hs t]
  have hn' : s.view.chain ≠ [] := by rw [Ne, view_chain_ne]; exact hn
  simp [serve, newTransaction, List.getLast?_eq_getLast_of_ne_nil hn']

/-- `/mine` uninterrupted -/
theorem hrun_mine [DecidableEq Hs] (fuel : Nat) (s : HState Tx Hs) (hs : HWf s) (hn : s.chain ≠ []) (reward : Tx) (time : Nat) :
    (hrun C fuel s (.mine reward time)).2 = .done ∧ HWf (hrun C fuel s (.mine reward time)).1 ∧
      (hrun C fuel s (.mine reward time)).1.chain ≠ [] ∧
      (hrun C fuel s (.mine reward time)).1.view = serve C fuel s.view (.mine reward time) := by
  obtain ⟨last, hl⟩ : ∃ last, s.chain.getLast? = some last := ⟨_, List.getLast?_eq_getLast_of_ne_nil hn⟩
  have hlv : s.view.chain.getLast? = some (s.deref last) := by simp [HState.view, hl]
  have hlm : last ∈ s.chain := List.mem_of_getLast? hl
  cases hp : proofOfWork C fuel (s.deref last) with
  | error e =>
    have e1 : hrun C fuel s (.mine reward time) = (s, .done) := by simp [hrun, List.range_succ, hstep, hl, hp]
    rw [e1]
    refine ⟨rfl, hs, hn, ?_⟩
    simp [serve, mine, hlv, hp, bind, Except.bind]
  | ok proof =>
    have e1 : hrun C fuel s (.mine reward time) =
        (⟨(s.append s.cur reward).heap ++ [[]], (s.append s.cur reward).heap.length,
          s.chain ++ [⟨s.chain.length + 1, time, s.cur, proof, C.hash ((s.append s.cur reward).deref last)⟩]⟩, .done) := by
      simp [hrun, List.range_succ, hstep, hl, hp, HState.append]
    rw [e1, append_deref s reward last (hs.2 last hlm).2]
    refine ⟨rfl, ⟨by simp, ?_⟩, by simp, ?_⟩
    · intro b hb
      rw [List.mem_append, List.mem_singleton] at hb
      rcases hb with hb | rfl
      · have := (hs.2 b hb).1
        simp [HState.append]; omega
      · have := hs.1
        simp [HState.append]; omega
    · have e2 : serve C fuel s.view (.mine reward time) =
          ⟨[], s.view.chain ++ [⟨s.chain.length + 1, time, s.view.current ++ [reward], proof, C.hash (s.deref last)⟩], []⟩ := by
        simp [serve, mine, hlv, hp, bind, Except.bind, newTransaction, newBlock]
        simp [HState.view]
      rw [e2]
      have hav := append_view s hs reward
      have hlen : (s.append s.cur reward).heap.length = s.heap.length := by simp [HState.append]
      have hcur : (s.append s.cur reward).heap.getD s.cur [] = s.view.current ++ [reward] := by
        have := congrArg State.current hav
        exact this
      have hch : s.chain.map (s.append s.cur reward).deref = s.view.chain := by
        have := congrArg State.chain hav
        exact this
      unfold HState.view
      simp only [State.mk.injEq, and_true]
      refine ⟨by simp, ?_⟩
      rw [List.map_append]
      congr 1
      · rw [show s.chain.map s.deref = s.view.chain from rfl, ← hch]
        apply List.map_congr_left
        intro b hb
        simp only [HState.deref]
        rw [getD_append_left _ _ (by rw [hlen]; exact (hs.2 b hb).1)]
      · simp only [List.map_cons, List.map_nil, HState.deref]
        rw [getD_append_left _ _ (by rw [hlen]; exact hs.1), hcur]
        rfl

end Verif.Chain

namespace Verif.Chain
open Spec

variable {Tx Hs : Type} (C : Crypto Tx Hs)

theorem hconcAll_append (fuel : Nat) (c : HConf Tx Hs) (a b : List Nat) : hconcAll C fuel c (a ++ b) = hconcAll C fuel (hconcAll C fuel c a) b := by
  simp [hconcAll]

theorem hconcAll_seven (fuel : Nat) (c : HConf Tx Hs) (i : Nat) (pc : HPc Tx Hs) (h : c.threads[i]? = some pc) :
    hconcAll C fuel c (List.replicate 7 i) = ⟨(hrun C fuel c.shared pc).1, c.threads.set i (hrun C fuel c.shared pc).2⟩ := by
  have hi : i < c.threads.length := (List.getElem?_eq_some_iff.mp h).1
  have step : ∀ (l : List (HPc Tx Hs)) (s : HState Tx Hs) (p : HPc Tx Hs), i < l.length →
      hconc C fuel ⟨s, l.set i p⟩ i = ⟨(hstep C fuel s p).1, l.set i (hstep C fuel s p).2⟩ := by
    intro l s p hl
    simp [hconc, List.getElem?_set_self hl]
  have h0 : c = ⟨c.shared, c.threads.set i pc⟩ := by
    obtain ⟨_, h'⟩ := List.getElem?_eq_some_iff.mp h
    rw [← h', List.set_getElem_self]
  rw [h0]
  simp only [hconcAll, List.replicate, List.foldl_cons, List.foldl_nil, step _ _ _ hi, hrun, List.range_succ, List.range_zero, List.nil_append,
    List.foldl_append, List.set_set]

/-- One request after the other. -/
theorem hconcAll_serial [DecidableEq Hs] (fuel : Nat) (order : List Nat) : ∀ (c : HConf Tx Hs) (ops : List (Op Tx Hs)), HWf c.shared → c.shared.chain ≠ [] →
    order.Nodup → List.Forall₂ (fun i op => ∃ pc, c.threads[i]? = some pc ∧ Request pc op) order ops →
    (hconcAll C fuel c (order.flatMap (List.replicate 7))).shared.view = serveAll C fuel c.shared.view ops := by
  induction order with
  | nil =>
    intro c ops _ _ _ h
    cases h
    rfl
  | cons i order ih =>
    intro c ops hw hn hnd h
    cases h with
    | cons h1 h2 =>
    rename_i op ops
    obtain ⟨pc, hpc, hr⟩ := h1
    rw [List.flatMap_cons, hconcAll_append, hconcAll_seven C fuel c i pc hpc]
    have key : HWf (hrun C fuel c.shared pc).1 ∧ (hrun C fuel c.shared pc).1.chain ≠ [] ∧
        (hrun C fuel c.shared pc).1.view = serve C fuel c.shared.view op := by
      cases hr with
      | submit t => exact (hrun_submit C fuel c.shared hw hn t).2
      | mine r t => exact (hrun_mine C fuel c.shared hw hn r t).2
    obtain ⟨k1, k2, k3⟩ := key
    rw [List.nodup_cons] at hnd
    rw [ih _ ops k1 k2 hnd.2, k3]
    · rfl
    · have hi := hnd.1
      clear ih hnd k1 k2 k3
      induction h2 with
      | nil => exact .nil
      | @cons j op' order ops hj _ ih =>
        refine .cons ?_ (ih (fun h => hi (List.mem_cons_of_mem _ h)))
        have hij : i ≠ j := fun h => hi (by simp [h])
        simpa only [List.getElem?_set_ne hij] using hj

end Verif.Chain
