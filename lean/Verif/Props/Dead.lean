import Verif.Props.Client

set_option linter.unusedSimpArgs false
set_option linter.unusedVariables false

/-
Property C82: what becomes of the calls on a client that is marked dead.
-/

namespace Ninep.Client
open Spec

/-- A client without a connection to read from: whatever happens, the reader stays off, the receiver stays
where it is and no call returns. -/
structure Deaf (s : State) : Prop where
  reader : s.reader = .off
  recv : s.recv = .idle
  phase : ∀ c b, s.phase c ≠ .done b

theorem deaf_init : Deaf initNoNet := ⟨rfl, rfl, fun c b h => by simp [initNoNet, init] at h⟩

theorem deaf_step {tr : Bool} {l : Label} {s s' : State} (h : Deaf s) (hst : Step tr l s s') : Deaf s' := by
  have hp : ∀ c x, (∀ b, x ≠ Phase.done b) → ∀ d b, upd s.phase c x d ≠ .done b := by
    intro c x hx d b
    unfold upd
    split
    · exact hx b
    · exact h.phase d b
  cases hst with
  | call _ c m => exact ⟨h.reader, h.recv, hp c _ (by simp)⟩
  | enqueue _ a b c => exact ⟨h.reader, h.recv, hp c _ (by simp)⟩
  | getTag | takeReq | takeTag | putTag | store | write | reply | junk | close => exact ⟨h.reader, h.recv, h.phase⟩
  | read _ _ _ e => rw [h.reader] at e; cases e
  | readEOF _ e => rw [h.reader] at e; cases e
  | handOver _ _ e => rw [h.reader] at e; cases e
  | handOverNil _ e => rw [h.reader] at e; cases e
  | lookup _ _ e => rw [h.recv] at e; cases e
  | deliver _ _ _ _ e => rw [h.recv] at e; cases e
  | retag _ _ e => rw [h.recv] at e; cases e

theorem deaf_exec {tr : Bool} {L : Label → Prop} {s s' : State} (h : Deaf s) (he : Exec tr L s s') : Deaf s' := by
  induction he with
  | refl => exact h
  | step _ _ _ _ _ _ hst ih => exact deaf_step ih hst

/-- After the end of the connection the peer's answers stay what they are. -/
theorem ended_step {l : Label} {s s' : State} (hl : Abiding l) (hd : s.reader = .stopped) (hc : s.closed = true)
    (h : Step true l s s') : s'.reader = .stopped ∧ s'.closed = true ∧ s'.replied = s.replied := by
  cases h with
  | call | getTag | enqueue | takeReq | takeTag | putTag | store | write | lookup | deliver | retag => exact ⟨hd, hc, rfl⟩
  | junk => exact hl.elim
  | reply _ _ _ _ _ _ _ _ _ e => rw [hc] at e; cases e
  | close => exact ⟨hd, rfl, rfl⟩
  | read _ _ _ e => rw [hd] at e; cases e
  | readEOF _ e => rw [hd] at e; cases e
  | handOver _ _ e => rw [hd] at e; cases e
  | handOverNil => exact ⟨hd, hc, rfl⟩

theorem ended_exec {s s' : State} (hd : s.reader = .stopped) (hc : s.closed = true) (he : Exec true Abiding s s') :
    s'.reader = .stopped ∧ s'.closed = true ∧ s'.replied = s.replied := by
  induction he with
  | refl => exact ⟨hd, hc, rfl⟩
  | step _ _ _ _ hl _ hst ih =>
    obtain ⟨h1, h2, h3⟩ := ih
    obtain ⟨k1, k2, k3⟩ := ended_step hl h1 h2 hst
    exact ⟨k1, k2, k3.trans h3⟩

/-- **C82, partial** A call that is started when the client is marked dead — because it has nothing to read
from, or because the connection has ended — never returns with a reply, in any continuation of any
execution with a peer that abides by the protocol. -/
theorem C82_no_reply_partial (s0 s s' : State) (h0 : s0 = init ∨ s0 = initNoNet) (he : Exec true Abiding s0 s)
    (hd : Dead s) (c : Nat) (hc : s.phase c = .idle) (he' : Exec true Abiding s s') (b : Bytes) :
    s'.phase c ≠ .done b := by
  rcases h0 with rfl | rfl
  · obtain ⟨hi, hcl⟩ := closing_exec (fun _ h => h) inv_init closing_init he
    have hst : s.reader = .stopped := hd.resolve_right hcl.on
    obtain ⟨hclosed, hnet⟩ := hcl.stopped hst
    obtain ⟨hi', -⟩ := closing_exec (fun _ h => h) hi hcl he'
    obtain ⟨-, -, hrep⟩ := ended_exec hst hclosed he'
    intro hb
    obtain ⟨q, hq⟩ := hi'.done c b hb
    rw [hrep] at hq
    have h1 := List.count_pos_iff.2 (List.mem_map.2 ⟨_, hq, rfl⟩ : c ∈ s.replied.map Prod.fst)
    have h2 := hi.once c
    have h3 := hi.calls c
    rw [hc] at h2 h3
    simp only [allCalls, flights, List.map_append, List.count_append, Phase.w, Phase.d] at h2 h3
    omega
  · exact (deaf_exec (deaf_exec deaf_init he) he').phase c b

theorem first_tag : ∀ n, 0 < n → ∃ ts, ((List.range n).map fun i => UInt16.ofNat (i + 1)) = 1 :: ts
  | n + 1, _ => by rw [List.range_succ_eq_map, List.map_cons]; exact ⟨_, rfl⟩

theorem initNoNet_tags : ∃ ts, initNoNet.tags = 1 :: ts := by
  unfold initNoNet init
  dsimp only
  exact first_tag _ (by simp [NOTAG])

/-- no goroutine of the client and no caller can go on -/
def Hung (s : State) : Prop := ∀ s', ¬ Step true .client s s'

theorem hang_call (s : State) (m : TMsg) (t : Tag) (ts : List Tag) (h1 : s.phase 0 = .idle) (h2 : s.sending = [])
    (h3 : s.fromClient = []) (h4 : s.sender = .idle) (h5 : s.tags = t :: ts) (h6 : s.reader = .off) (h7 : s.recv = .idle)
    (h8 : s.written = []) :
    ∃ s', Exec true (fun l => l = .call ∨ l = .client) s s' ∧ Dead s' ∧ s'.phase 0 = .waiting ∧
      s'.written = [(0, m.packet t)] ∧ Hung s' := by
  have ha : Alive s := by simp [Alive, h7]
  have e1 := Exec.step (L := fun l => l = .call ∨ l = .client) s s _ .call (Exec.refl _) (.inl rfl)
    ha (Step.call (trace := true) s 0 m h1)
  have e2 := Exec.step s _ _ .client e1 (.inr rfl) ha
    (Step.enqueue _ [] [] 0 (by simp [h2]) (by simp [h3, NumTags]))
  have e3 := Exec.step s _ _ .client e2 (.inr rfl) ha (Step.takeReq _ 0 [] h4 (by simp [h3]))
  have e4 := Exec.step s _ _ .client e3 (.inr rfl) ha (Step.takeTag _ 0 t ts rfl h5)
  have e5 := Exec.step s _ _ .client e4 (.inr rfl) ha (Step.putTag _ 0 t rfl)
  have e6 := Exec.step s _ _ .client e5 (.inr rfl) ha (Step.store _ 0 t rfl)
  have e7 := Exec.step s _ _ .client e6 (.inr rfl) ha (Step.write _ 0 t rfl)
  refine ⟨_, e7, .inr h6, by simp [upd], ?_, ?_⟩
  · have : setTag (encodeT {} 0 m).bytes t = m.packet t := by
      rw [C04_wire_layout.1]
      exact setTag_packet m 0 t
    simp [upd, this, h8]
  · intro s' hst
    cases hst with
    | enqueue _ a b c e => exact absurd e (by simp)
    | takeReq _ c cs _ e => cases e
    | takeTag _ _ _ _ e => cases e
    | putTag _ _ _ e => cases e
    | store _ _ _ e => cases e
    | write _ _ _ e => cases e
    | read _ _ _ e => exact absurd (h6.symm.trans e) (by simp)
    | readEOF _ e => exact absurd (h6.symm.trans e) (by simp)
    | handOver _ _ e => exact absurd (h6.symm.trans e) (by simp)
    | handOverNil _ e => exact absurd (h6.symm.trans e) (by simp)
    | lookup _ _ e => exact absurd (h7.symm.trans e) (by simp)
    | deliver _ _ _ _ e => exact absurd (h7.symm.trans e) (by simp)
    | retag _ _ e => exact absurd (h7.symm.trans e) (by simp)

/-- **C82 is false**: on a client that has nothing to read from, and so is marked dead at once, a call does
not fail.  Its request is sent to the server all the same; then the caller waits, and nothing in the client
can move (first part).  Whatever else happens, no call returns and the client does not panic either (second
part). -/
theorem C82_counterexample :
    (∀ m : TMsg, ∃ s, Exec true (fun l => l = .call ∨ l = .client) initNoNet s ∧ Dead s ∧ s.phase 0 = .waiting ∧
      s.written = [(0, m.packet 1)] ∧ Hung s) ∧
    (∀ (trace : Bool) (s : State), Exec trace anyone initNoNet s → Dead s ∧ Alive s ∧ ∀ c b, s.phase c ≠ .done b) := by
  refine ⟨fun m => ?_, fun trace s he => ?_⟩
  · obtain ⟨ts, hts⟩ := initNoNet_tags
    exact hang_call initNoNet m 1 ts rfl rfl rfl rfl hts rfl rfl rfl
  · have h := deaf_exec deaf_init he
    exact ⟨.inr h.reader, by simp [Alive, h.recv], h.phase⟩

/-- C82: a client whose connection has ended, and a call that is started on it -/
example : ∃ s s', Exec true Abiding init s ∧ Dead s ∧ s.phase 0 = .idle ∧ Exec true Abiding s s' ∧ s'.phase 0 = .sending := by
  have e1 := Exec.step (L := Abiding) init init _ .close (Exec.refl init) trivial (by simp [Alive, init])
    (Step.close (trace := true) init)
  have e2 := Exec.step init _ _ .client e1 trivial (by simp [Alive, init]) (Step.readEOF _ rfl rfl rfl)
  exact ⟨_, _, e2, .inl rfl, rfl, Exec.step _ _ _ .call (Exec.refl _) trivial (by simp [Alive, init])
    (Step.call _ 0 (.clunk {}) rfl), by simp [upd]⟩

end Ninep.Client
