import Verif.Props.Dead

set_option linter.unusedSimpArgs false
set_option linter.unusedVariables false

/-
The table of calls (`Client.RPC`) is shared by the two goroutines of `IO` (C87).
-/

namespace Ninep.Client
open Spec

/-- the goroutine that sends is about to write the entry `i` of the table (client.go:136) -/
def Writing (s : State) (i : Nat) : Prop := ∃ c t, s.sender = .tagged c t ∧ i = t.toNat - 1

/-- the goroutine that receives is about to read the entry `i` of the table (client.go:164) -/
def Reading (s : State) (i : Nat) : Prop := ∃ r, s.recv = .got r ∧ i = (pktTag r.bytes).toNat - 1

/-- **C87** (partial) If the peer only answers requests, each at most once, the two goroutines never use the same
entry of the table at the same time, and all entries they use are in the table.  The full statement lacks
the condition on the peer; see `C87_counterexample`. -/
theorem C87_slots_partial (s : State) (he : Exec true Abiding init s) (i : Nat) :
    ¬ (Writing s i ∧ Reading s i) ∧ (Writing s i ∨ Reading s i → i < NumTags) := by
  have hi := inv_exec (fun _ h => h) inv_init he
  constructor
  · rintro ⟨⟨c, t, hs, rfl⟩, ⟨r, hr, h⟩⟩
    have h1 : t ∈ allTags s := by simp [allTags, hs, Sender.tags]
    have h2 : pktTag r.bytes ∈ allTags s := by simp [allTags, flights, hr, Recv.fl, Reply.fl]
    have l1 := inv_tag_legal hi h1
    have l2 := inv_tag_legal hi h2
    have he : t = pktTag r.bytes := by
      apply UInt16.toNat_inj.1
      unfold Legal at l1 l2
      omega
    have := hi.tags t
    rw [if_pos l1] at this
    simp only [allTags, flights, hs, hr, Sender.tags, Sender.fl, Recv.fl, Recv.tags, Reply.fl, ← he, List.count_append,
      List.map_append, List.map_cons, List.map_nil, List.count_cons_self, List.count_nil, List.nil_append] at this
    omega
  · rintro (⟨c, t, hs, rfl⟩ | ⟨r, hr, rfl⟩)
    · have := inv_tag_legal hi (t := t) (by simp [allTags, hs, Sender.tags])
      unfold Legal at this
      simp [NumTags]; omega
    · have := inv_tag_legal hi (t := pktTag r.bytes) (by simp [allTags, flights, hr, Recv.fl, Reply.fl])
      unfold Legal at this
      simp [NumTags]; omega

theorem race_call (s : State) (m : TMsg) (t : Tag) (ts : List Tag) (h1 : s.phase 0 = .idle) (h2 : s.sending = [])
    (h3 : s.fromClient = []) (h4 : s.sender = .idle) (h5 : s.tags = t :: ts) (h6 : s.reader = .idle) (h7 : s.recv = .idle)
    (h8 : s.fromNet = []) (h9 : s.closed = false) :
    ∃ s', Exec true anyone s s' ∧ Writing s' (t.toNat - 1) ∧ Reading s' (t.toNat - 1) := by
  have ha : Alive s := by simp [Alive, h7]
  have e1 := Exec.step (L := anyone) s s _ .call (Exec.refl _) trivial ha (Step.call (trace := true) s 0 m h1)
  have e2 := Exec.step s _ _ .client e1 trivial ha (Step.enqueue _ [] [] 0 (by simp [h2]) (by simp [h3, NumTags]))
  have e3 := Exec.step s _ _ .client e2 trivial ha (Step.takeReq _ 0 [] h4 (by simp [h3]))
  have e4 := Exec.step s _ _ .client e3 trivial ha (Step.takeTag _ 0 t ts rfl h5)
  have e5 := Exec.step s _ _ .client e4 trivial ha (Step.putTag _ 0 t rfl)
  have e6 := Exec.step s _ _ .junk e5 trivial ha (Step.junk _ (m.packet t) (packetT_length m t) h9)
  have e7 := Exec.step s _ _ .client e6 trivial ha (Step.read _ ⟨none, m.packet t⟩ [] h6 (by simp [h8]))
  have e8 := Exec.step s _ _ .client e7 trivial ha (Step.handOver _ ⟨none, m.packet t⟩ rfl h7)
  exact ⟨_, e8, ⟨0, t, rfl, rfl⟩, ⟨_, rfl, by rw [pktTag_packet]⟩⟩

/-- **C87** does not hold with an arbitrary peer: a packet that comes before the request with its tag is written makes one
goroutine read the entry the other one is writing. -/
theorem C87_counterexample : ∃ s i, Exec true anyone init s ∧ Writing s i ∧ Reading s i := by
  obtain ⟨ts, hts⟩ : ∃ ts, init.tags = 1 :: ts := by
    unfold init
    dsimp only
    exact first_tag _ (by simp [NOTAG])
  obtain ⟨s, h1, h2, h3⟩ := race_call init (.flush {}) 1 ts rfl rfl rfl rfl hts rfl rfl rfl rfl
  exact ⟨s, _, h1, h2, h3⟩

/-- C87: a state of an execution with a peer that only answers in which one goroutine is about to write -/
example : ∃ s i, Exec true Abiding init s ∧ Writing s i := by
  obtain ⟨ts, hts⟩ : ∃ ts, init.tags = 1 :: ts := by
    unfold init
    dsimp only
    exact first_tag _ (by simp [NOTAG])
  have : ∀ (s : State) (t : Tag) (ts : List Tag), s.phase 0 = .idle → s.sending = [] → s.fromClient = [] → s.sender = .idle →
      s.tags = t :: ts → s.recv = .idle → ∃ s', Exec true Abiding s s' ∧ Writing s' (t.toNat - 1) := by
    intro s t ts h1 h2 h3 h4 h5 h7
    have ha : Alive s := by simp [Alive, h7]
    have e1 := Exec.step (L := Abiding) s s _ .call (Exec.refl _) trivial ha (Step.call (trace := true) s 0 (.flush {}) h1)
    have e2 := Exec.step s _ _ .client e1 trivial ha (Step.enqueue _ [] [] 0 (by simp [h2]) (by simp [h3, NumTags]))
    have e3 := Exec.step s _ _ .client e2 trivial ha (Step.takeReq _ 0 [] h4 (by simp [h3]))
    have e4 := Exec.step s _ _ .client e3 trivial ha (Step.takeTag _ 0 t ts rfl h5)
    have e5 := Exec.step s _ _ .client e4 trivial ha (Step.putTag _ 0 t rfl)
    exact ⟨_, e5, ⟨0, t, rfl, rfl⟩⟩
  obtain ⟨s, h1, h2⟩ := this init 1 ts rfl rfl rfl rfl hts rfl
  exact ⟨s, _, h1, h2⟩

end Ninep.Client
