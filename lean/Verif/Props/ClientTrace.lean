import Verif.Client.Trace
import Verif.Props.Bytes

set_option linter.unusedSimpArgs false
set_option linter.unusedVariables false

/-
The trace of a client is a transcript of what it sends and receives (C116).
-/

namespace Ninep.Client
open Spec

/-! ### the transcript -/

/-- the goroutine a line comes from -/
inductive Origin where
  | sender
  | reader
  | receiver
deriving DecidableEq

def TLine.origin : TLine → Origin
  | .tagReq _ | .write _ => .sender
  | .starting | .beforeRead | .header _ | .got _ _ => .reader
  | .read _ | .tagReply _ | .rpc _ | .rrr _ => .receiver

/-- the lines of one goroutine, in order -/
def from_ (o : Origin) (tr : List TLine) : List TLine := tr.filter fun l => l.origin = o

/-- the packets of the lines "Write …" -/
def writes (tr : List TLine) : List Bytes := tr.filterMap fun | .write b => some b | _ => none
/-- the packets of the lines "Read …" -/
def reads (tr : List TLine) : List Bytes := tr.filterMap fun | .read b => some b | _ => none
/-- the tags of the lines "Tag for reply …" -/
def replyTags (tr : List TLine) : List Tag := tr.filterMap fun | .tagReply t => some t | _ => none

/-- the lines of a request -/
def reqLines (b : Bytes) : List TLine := [.tagReq (pktTag b), .tagReq (pktTag b), .write b]
/-- the lines of a packet that is read, up to the next read -/
def pktLines (b : Bytes) : List TLine := [.header (b.take 7), .got (b.getD 4 0) b.length, .beforeRead]

/-- the lines of the request that the sender works on -/
def begunLines (s : State) : List TLine :=
  match s.sender with
  | .haveTag _ t => [.tagReq t]
  | .tagged _ t => [.tagReq t, .tagReq t]
  | .stored c t => [.tagReq t, .tagReq t, .write (s.buf c)]
  | _ => []

/-- what `readNetPackets` holds -/
def held (s : State) : List Bytes := match s.reader with | .holding r => [r.bytes] | _ => []
/-- what the receiver has got and has not looked at -/
def unseen (s : State) : List Bytes := match s.recv with | .got r => [r.bytes] | _ => []

/-- calls whose request is on its way to the network -/
def underway (s : State) (c : Nat) : Prop :=
  c ∈ s.sending ∨ c ∈ s.fromClient ∨
    match s.sender with
    | .idle => False
    | .haveReq d | .haveTag d _ | .tagged d _ | .stored d _ => c = d

structure TInv (s : State) (tr : List TLine) (arr : List Bytes) : Prop where
  calls : ∀ c, underway s c → s.phase c ≠ .idle ∧ ∃ (m : TMsg) (t : Tag), s.buf c = m.packet t
  tag : match s.sender with
    | .tagged c t | .stored c t => pktTag (s.buf c) = t
    | _ => True
  sender : from_ .sender tr = s.written.flatMap (fun x => reqLines x.2) ++ begunLines s
  inbox : ∃ handed looked, arr = handed ++ held s ++ s.fromNet.map (·.bytes) ∧ handed = looked ++ unseen s ∧
    from_ .reader tr = [.starting, .beforeRead] ++ handed.flatMap pktLines ++ (held s).flatMap (fun b => (pktLines b).take 2) ∧
    reads tr = looked ∧ replyTags tr = looked.map pktTag

theorem from_append (o : Origin) (a b : List TLine) : from_ o (a ++ b) = from_ o a ++ from_ o b := List.filter_append ..
theorem reads_append (a b : List TLine) : reads (a ++ b) = reads a ++ reads b := List.filterMap_append
theorem replyTags_append (a b : List TLine) : replyTags (a ++ b) = replyTags a ++ replyTags b := List.filterMap_append

theorem says_nil {s s' : State} (h1 : s'.sender = s.sender) (h2 : s'.reader = s.reader) (h3 : s'.recv = s.recv) : says s s' = [] := by
  unfold says
  rw [h1, h2, h3]
  have a : senderSays s.sender s.sender s'.buf = [] := by cases s.sender <;> rfl
  have b : readerSays s.reader s.reader = [] := by cases s.reader <;> rfl
  have c : recvSays s.recv s.recv s.rpc = [] := by cases s.recv <;> rfl
  rw [a, b, c]
  rfl

theorem arrivals_nil {s s' : State} (h : s'.fromNet.length ≤ s.fromNet.length) : arrivals s s' = [] := by
  unfold arrivals
  rw [List.drop_of_length_le h]
  rfl

/-- a step in which no goroutine goes on and nothing arrives -/
theorem TInv.quiet {s s' : State} {tr : List TLine} {arr : List Bytes} (h : TInv s tr arr)
    (h1 : s'.sender = s.sender) (h2 : s'.reader = s.reader) (h3 : s'.recv = s.recv) (h4 : s'.fromNet = s.fromNet)
    (h5 : s'.written = s.written)
    (hb : ∀ c, (match s.sender with | .stored d _ | .tagged d _ => c = d | _ => False) → s'.buf c = s.buf c)
    (hc : ∀ c, underway s' c → s'.phase c ≠ .idle ∧ ∃ (m : TMsg) (t : Tag), s'.buf c = m.packet t) :
    TInv s' (tr ++ says s s') (arr ++ arrivals s s') := by
  rw [says_nil h1 h2 h3, arrivals_nil (by rw [h4]; exact Nat.le_refl _), List.append_nil, List.append_nil]
  have hbegun : begunLines s' = begunLines s := by
    unfold begunLines
    rw [h1]
    cases hs : s.sender with
    | stored c t => dsimp only; rw [hb c (by rw [hs])]
    | _ => rfl
  have hheld : held s' = held s := by unfold held; rw [h2]
  have hunseen : unseen s' = unseen s := by unfold unseen; rw [h3]
  refine ⟨hc, ?_, by rw [h5, hbegun]; exact h.sender, by rw [hheld, hunseen, h4]; exact h.inbox⟩
  have ht := h.tag
  rw [h1]
  cases hs : s.sender with
  | stored c t => rw [hs] at ht; dsimp only at ht ⊢; rw [hb c (by rw [hs])]; exact ht
  | tagged c t => rw [hs] at ht; dsimp only at ht ⊢; rw [hb c (by rw [hs])]; exact ht
  | _ => trivial

theorem TInv.of {s s' : State} {tr x : List TLine} {arr y : List Bytes} (e : says s s' = x) (a : arrivals s s' = y)
    (h : TInv s' (tr ++ x) (arr ++ y)) : TInv s' (tr ++ says s s') (arr ++ arrivals s s') := by
  rw [e, a]
  exact h

theorem tinv_init : TInv init [.starting, .beforeRead] [] where
  calls := by
    rintro c (h | h | h)
    · cases h
    · cases h
    · exact h.elim
  tag := trivial
  sender := rfl
  inbox := ⟨[], [], rfl, rfl, rfl, rfl, rfl⟩

theorem tinv_step {s s' : State} {tr : List TLine} {arr : List Bytes} {l : Label} (h : TInv s tr arr) (hs : Step true l s s') :
    TInv s' (tr ++ says s s') (arr ++ arrivals s s') := by
  cases hs with
  | call _ c m hp =>
    refine h.quiet rfl rfl rfl rfl rfl ?_ ?_
    · intro d hd
      have : underway s d := by
        refine .inr (.inr ?_)
        cases hsd : s.sender with
        | stored e t => rw [hsd] at hd; exact hd
        | tagged e t => rw [hsd] at hd; exact hd
        | _ => rw [hsd] at hd; exact hd.elim
      have hne : d ≠ c := by rintro rfl; exact (h.calls d this).1 hp
      exact upd_other _ _ hne
    · intro d hd
      by_cases hdc : d = c
      · subst hdc
        refine ⟨by dsimp only; rw [upd_same]; nofun, m, 0, ?_⟩
        dsimp only
        rw [upd_same, C04_wire_layout.1]
      · have : underway s d := by
          rcases hd with hd | hd
          · rcases List.mem_cons.1 hd with rfl | hd
            · exact absurd rfl hdc
            · exact .inl hd
          · exact .inr hd
        dsimp only
        rw [upd_other _ _ hdc, upd_other _ _ hdc]
        exact h.calls d this
  | getTag _ t ts ht => exact h.quiet rfl rfl rfl rfl rfl (fun _ _ => rfl) h.calls
  | enqueue _ a b c hsd hlen =>
    refine h.quiet rfl rfl rfl rfl rfl (fun _ _ => rfl) ?_
    intro d hd
    have : underway s d := by
      rcases hd with hd | hd | hd
      · refine .inl ?_
        rw [hsd]
        rcases List.mem_append.1 hd with hd | hd <;> simp [hd]
      · rcases List.mem_append.1 hd with hd | hd
        · exact .inr (.inl hd)
        · rw [List.mem_singleton.1 hd]
          exact .inl (by rw [hsd]; simp)
      · exact .inr (.inr hd)
    refine ⟨?_, (h.calls d this).2⟩
    dsimp only
    by_cases hdc : d = c
    · subst hdc; rw [upd_same]; nofun
    · rw [upd_other _ _ hdc]; exact (h.calls d this).1
  | takeReq _ c cs h1 h2 =>
    have e : says s { s with sender := .haveReq c, fromClient := cs } = [] := by
      unfold says
      rw [h1]
      have b : readerSays s.reader s.reader = [] := by cases s.reader <;> rfl
      have c : recvSays s.recv s.recv s.rpc = [] := by cases s.recv <;> rfl
      dsimp only
      rw [b, c]
      rfl
    refine TInv.of e (arrivals_nil (Nat.le_refl _)) ?_
    rw [List.append_nil, List.append_nil]
    refine ⟨?_, trivial, ?_, h.inbox⟩
    · intro d hd
      refine h.calls d ?_
      rcases hd with hd | hd | hd
      · exact .inl hd
      · exact .inr (.inl (by rw [h2]; exact .tail _ hd))
      · exact .inr (.inl (by rw [h2, show d = c from hd]; exact .head _))
    · have := h.sender
      unfold begunLines at this ⊢
      rw [h1] at this
      exact this
  | takeTag _ c t ts h1 h2 =>
    have e : says s { s with sender := .haveTag c t, tags := ts } = [.tagReq t] := by
      unfold says
      rw [h1]
      have b : readerSays s.reader s.reader = [] := by cases s.reader <;> rfl
      have c : recvSays s.recv s.recv s.rpc = [] := by cases s.recv <;> rfl
      dsimp only
      rw [b, c]
      rfl
    refine TInv.of e (arrivals_nil (Nat.le_refl _)) ?_
    rw [List.append_nil]
    refine ⟨?_, trivial, ?_, ?_⟩
    · intro d hd
      refine h.calls d ?_
      rcases hd with hd | hd | hd
      · exact .inl hd
      · exact .inr (.inl hd)
      · exact .inr (.inr (by rw [h1]; exact hd))
    · have := h.sender
      unfold begunLines at this ⊢
      rw [h1] at this
      rw [from_append, this]
      simp [from_, TLine.origin]
    · obtain ⟨a, b, i1, i2, i3, i4, i5⟩ := h.inbox
      refine ⟨a, b, i1, i2, ?_, ?_, ?_⟩
      · rw [from_append, i3]; simp [from_, TLine.origin, held]
      · rw [reads_append, i4]; simp [reads]
      · rw [replyTags_append, i5]; simp [replyTags]
  | putTag _ c t h1 =>
    have e : says s { s with sender := .tagged c t, buf := upd s.buf c (setTag (s.buf c) t) } = [.tagReq t] := by
      unfold says
      rw [h1]
      have b : readerSays s.reader s.reader = [] := by cases s.reader <;> rfl
      have c : recvSays s.recv s.recv s.rpc = [] := by cases s.recv <;> rfl
      dsimp only
      rw [b, c]
      rfl
    obtain ⟨_, m, t0, hb⟩ := h.calls c (.inr (.inr (by rw [h1])))
    refine TInv.of e (arrivals_nil (Nat.le_refl _)) ?_
    rw [List.append_nil]
    refine ⟨?_, ?_, ?_, ?_⟩
    · intro d hd
      have : underway s d := by
        rcases hd with hd | hd | hd
        · exact .inl hd
        · exact .inr (.inl hd)
        · exact .inr (.inr (by rw [h1]; exact hd))
      refine ⟨(h.calls d this).1, ?_⟩
      dsimp only
      by_cases hdc : d = c
      · subst hdc
        exact ⟨m, t, by rw [upd_same, hb, setTag_packet]⟩
      · rw [upd_other _ _ hdc]; exact (h.calls d this).2
    · dsimp only
      rw [upd_same, hb, setTag_packet, pktTag_packet]
    · have := h.sender
      unfold begunLines at this ⊢
      rw [h1] at this
      rw [from_append, this]
      simp [from_, TLine.origin]
    · obtain ⟨a, b, i1, i2, i3, i4, i5⟩ := h.inbox
      refine ⟨a, b, i1, i2, ?_, ?_, ?_⟩
      · rw [from_append, i3]; simp [from_, TLine.origin, held]
      · rw [reads_append, i4]; simp [reads]
      · rw [replyTags_append, i5]; simp [replyTags]
  | store _ c t h1 =>
    have e : says s { s with sender := .stored c t, rpc := upd s.rpc (t.toNat - 1) (some c) } = [.write (s.buf c)] := by
      unfold says
      rw [h1]
      have b : readerSays s.reader s.reader = [] := by cases s.reader <;> rfl
      have c : recvSays s.recv s.recv s.rpc = [] := by cases s.recv <;> rfl
      dsimp only
      rw [b, c]
      rfl
    refine TInv.of e (arrivals_nil (Nat.le_refl _)) ?_
    rw [List.append_nil]
    refine ⟨?_, ?_, ?_, ?_⟩
    · intro d hd
      refine h.calls d ?_
      rcases hd with hd | hd | hd
      · exact .inl hd
      · exact .inr (.inl hd)
      · exact .inr (.inr (by rw [h1]; exact hd))
    · have ht := h.tag
      rw [h1] at ht
      exact ht
    · have := h.sender
      unfold begunLines at this ⊢
      rw [h1] at this
      rw [from_append, this]
      simp [from_, TLine.origin]
    · obtain ⟨a, b, i1, i2, i3, i4, i5⟩ := h.inbox
      refine ⟨a, b, i1, i2, ?_, ?_, ?_⟩
      · rw [from_append, i3]; simp [from_, TLine.origin, held]
      · rw [reads_append, i4]; simp [reads]
      · rw [replyTags_append, i5]; simp [replyTags]
  | write _ c t h1 =>
    have e : says s { s with sender := .idle, wire := s.wire ++ [(c, s.buf c)], written := s.written ++ [(c, s.buf c)] } = [] := by
      unfold says
      rw [h1]
      have b : readerSays s.reader s.reader = [] := by cases s.reader <;> rfl
      have c : recvSays s.recv s.recv s.rpc = [] := by cases s.recv <;> rfl
      dsimp only
      rw [b, c]
      rfl
    refine TInv.of e (arrivals_nil (Nat.le_refl _)) ?_
    rw [List.append_nil, List.append_nil]
    refine ⟨?_, trivial, ?_, h.inbox⟩
    · intro d hd
      refine h.calls d ?_
      rcases hd with hd | hd | hd
      · exact .inl hd
      · exact .inr (.inl hd)
      · exact hd.elim
    · have ht := h.tag
      rw [h1] at ht
      dsimp only at ht
      have := h.sender
      unfold begunLines at this ⊢
      rw [h1] at this
      dsimp only at this ⊢
      rw [this]
      simp [reqLines, ht]
  | reply _ x y c q p h1 h2 h3 h4 =>
    have e : says s { s with wire := x ++ y, fromNet := s.fromNet ++ [{ owner := some c, bytes := p }], replied := s.replied ++ [(c, q, p)] } = [] :=
      says_nil rfl rfl rfl
    have a : arrivals s { s with wire := x ++ y, fromNet := s.fromNet ++ [{ owner := some c, bytes := p }], replied := s.replied ++ [(c, q, p)] } = [p] := by
      simp [arrivals]
    rw [e, a, List.append_nil]
    refine ⟨h.calls, h.tag, h.sender, ?_⟩
    obtain ⟨a, b, i1, i2, i3, i4, i5⟩ := h.inbox
    exact ⟨a, b, by rw [i1]; simp [held], i2, i3, i4, i5⟩
  | junk _ p h1 h2 =>
    have e : says s { s with fromNet := s.fromNet ++ [{ owner := none, bytes := p }] } = [] := says_nil rfl rfl rfl
    have a : arrivals s { s with fromNet := s.fromNet ++ [{ owner := none, bytes := p }] } = [p] := by
      simp [arrivals]
    rw [e, a, List.append_nil]
    refine ⟨h.calls, h.tag, h.sender, ?_⟩
    obtain ⟨a, b, i1, i2, i3, i4, i5⟩ := h.inbox
    exact ⟨a, b, by rw [i1]; simp [held], i2, i3, i4, i5⟩
  | close _ => exact h.quiet rfl rfl rfl rfl rfl (fun _ _ => rfl) h.calls
  | read _ r rs h1 h2 =>
    have e : says s { s with reader := .holding r, fromNet := rs } = [.header (r.bytes.take 7), .got (r.bytes.getD 4 0) r.bytes.length] := by
      unfold says
      rw [h1]
      have b : senderSays s.sender s.sender s.buf = [] := by cases s.sender <;> rfl
      have c : recvSays s.recv s.recv s.rpc = [] := by cases s.recv <;> rfl
      dsimp only
      rw [b, c]
      rfl
    refine TInv.of e (arrivals_nil (by rw [h2]; simp)) ?_
    rw [List.append_nil]
    refine ⟨h.calls, h.tag, ?_, ?_⟩
    · rw [from_append, h.sender]
      simp [from_, TLine.origin, begunLines]
    · obtain ⟨a, b, i1, i2, i3, i4, i5⟩ := h.inbox
      refine ⟨a, b, ?_, i2, ?_, ?_, ?_⟩
      · rw [i1, h2]; simp [held, h1]
      · rw [from_append, i3]; simp [from_, TLine.origin, held, h1, pktLines]
      · rw [reads_append, i4]; simp [reads]
      · rw [replyTags_append, i5]; simp [replyTags]
  | readEOF _ h1 h2 h3 =>
    have e : says s { s with reader := .stopped } = [] := by
      unfold says
      rw [h1]
      have b : senderSays s.sender s.sender s.buf = [] := by cases s.sender <;> rfl
      have c : recvSays s.recv s.recv s.rpc = [] := by cases s.recv <;> rfl
      dsimp only
      rw [b, c]
      rfl
    refine TInv.of e (arrivals_nil (Nat.le_refl _)) ?_
    rw [List.append_nil, List.append_nil]
    refine ⟨h.calls, h.tag, h.sender, ?_⟩
    obtain ⟨a, b, i1, i2, i3, i4, i5⟩ := h.inbox
    refine ⟨a, b, ?_, i2, ?_, i4, i5⟩
    · rw [i1]; simp [held, h1]
    · rw [i3]; simp [held, h1]
  | handOver _ r h1 h2 =>
    have e : says s { s with reader := .idle, recv := .got r } = [.beforeRead] := by
      unfold says
      rw [h1, h2]
      have b : senderSays s.sender s.sender s.buf = [] := by cases s.sender <;> rfl
      dsimp only
      rw [b]
      rfl
    refine TInv.of e (arrivals_nil (Nat.le_refl _)) ?_
    rw [List.append_nil]
    refine ⟨h.calls, h.tag, ?_, ?_⟩
    · rw [from_append, h.sender]
      simp [from_, TLine.origin, begunLines]
    · obtain ⟨a, b, i1, i2, i3, i4, i5⟩ := h.inbox
      refine ⟨a ++ [r.bytes], b, ?_, ?_, ?_, ?_, ?_⟩
      · rw [i1]; simp [held, h1]
      · rw [i2]; simp [unseen, h2]
      · rw [from_append, i3]; simp [from_, TLine.origin, held, h1, pktLines]
      · rw [reads_append, i4]; simp [reads]
      · rw [replyTags_append, i5]; simp [replyTags]
  | handOverNil _ h1 h2 =>
    have e : says s { s with recv := .panicked } = [] := by
      unfold says
      rw [h2]
      have b : senderSays s.sender s.sender s.buf = [] := by cases s.sender <;> rfl
      have c : readerSays s.reader s.reader = [] := by cases s.reader <;> rfl
      dsimp only
      rw [b, c]
      rfl
    refine TInv.of e (arrivals_nil (Nat.le_refl _)) ?_
    rw [List.append_nil, List.append_nil]
    refine ⟨h.calls, h.tag, h.sender, ?_⟩
    obtain ⟨a, b, i1, i2, i3, i4, i5⟩ := h.inbox
    exact ⟨a, b, i1, by rw [i2]; simp [unseen, h2], i3, i4, i5⟩
  | lookup _ r h1 =>
    have hng : ∀ q, lookup true s.rpc r.bytes ≠ .got q := by
      intro q
      unfold lookup
      dsimp only
      split
      · nofun
      · split
        · nofun
        · split
          · nofun
          · split <;> nofun
    have e : ∃ more, says s { s with recv := lookup true s.rpc r.bytes } = [.read r.bytes, .tagReply (pktTag r.bytes)] ++ more ∧
        ∀ x ∈ more, ∃ c, x = .rpc c ∨ x = .rrr c := by
      unfold says
      rw [h1]
      have b : senderSays s.sender s.sender s.buf = [] := by cases s.sender <;> rfl
      have c : readerSays s.reader s.reader = [] := by cases s.reader <;> rfl
      dsimp only
      rw [b, c]
      generalize hl : lookup true s.rpc r.bytes = v at hng
      refine ⟨if pktTag r.bytes < 1 ∨ (pktTag r.bytes).toNat - 1 ≥ NumTags then []
        else [.rpc (s.rpc ((pktTag r.bytes).toNat - 1)), .rrr (s.rpc ((pktTag r.bytes).toNat - 1))], ?_, ?_⟩
      · unfold recvSays
        cases v with
        | got q => exact absurd rfl (hng q)
        | _ => rfl
      · intro x hx
        split at hx
        · cases hx
        · simp only [List.mem_cons, List.not_mem_nil, or_false] at hx
          rcases hx with rfl | rfl
          · exact ⟨_, .inl rfl⟩
          · exact ⟨_, .inr rfl⟩
    obtain ⟨more, e, hm⟩ := e
    refine TInv.of e (arrivals_nil (Nat.le_refl _)) ?_
    rw [List.append_nil]
    have m1 : from_ .sender more = [] := List.filter_eq_nil_iff.2 fun x hx => by
      obtain ⟨c, rfl | rfl⟩ := hm x hx <;> simp [TLine.origin]
    have m2 : from_ .reader more = [] := List.filter_eq_nil_iff.2 fun x hx => by
      obtain ⟨c, rfl | rfl⟩ := hm x hx <;> simp [TLine.origin]
    have m3 : reads more = [] := List.filterMap_eq_nil_iff.2 fun x hx => by
      obtain ⟨c, rfl | rfl⟩ := hm x hx <;> rfl
    have m4 : replyTags more = [] := List.filterMap_eq_nil_iff.2 fun x hx => by
      obtain ⟨c, rfl | rfl⟩ := hm x hx <;> rfl
    refine ⟨h.calls, h.tag, ?_, ?_⟩
    · rw [from_append, from_append, m1, h.sender]
      simp [from_, TLine.origin, begunLines]
    · obtain ⟨a, b, i1, i2, i3, i4, i5⟩ := h.inbox
      refine ⟨a, b ++ [r.bytes], i1, ?_, ?_, ?_, ?_⟩
      · rw [i2]
        have : unseen { s with recv := lookup true s.rpc r.bytes } = [] := by
          unfold unseen
          dsimp only
          cases hv : lookup true s.rpc r.bytes with
          | got q => exact absurd hv (hng q)
          | _ => rfl
        rw [this]
        simp [unseen, h1]
      · rw [from_append, from_append, m2, i3]; simp [from_, TLine.origin, held]
      · rw [reads_append, reads_append, m3, i4]; simp [reads]
      · rw [replyTags_append, replyTags_append, m4, i5]; simp [replyTags]
  | deliver _ c t b h1 h2 =>
    have e : says s { s with recv := .retag t, phase := upd s.phase c (.done b) } = [] := by
      unfold says
      rw [h1]
      have b : senderSays s.sender s.sender s.buf = [] := by cases s.sender <;> rfl
      have c : readerSays s.reader s.reader = [] := by cases s.reader <;> rfl
      dsimp only
      rw [b, c]
      rfl
    refine TInv.of e (arrivals_nil (Nat.le_refl _)) ?_
    rw [List.append_nil, List.append_nil]
    refine ⟨?_, h.tag, h.sender, ?_⟩
    · intro d hd
      refine ⟨?_, (h.calls d hd).2⟩
      dsimp only
      by_cases hdc : d = c
      · subst hdc; rw [upd_same]; nofun
      · rw [upd_other _ _ hdc]; exact (h.calls d hd).1
    · obtain ⟨a, b, i1, i2, i3, i4, i5⟩ := h.inbox
      exact ⟨a, b, i1, by rw [i2]; simp [unseen, h1], i3, i4, i5⟩
  | retag _ t h1 h2 =>
    have e : says s { s with recv := .idle, tags := s.tags ++ [t] } = [] := by
      unfold says
      rw [h1]
      have b : senderSays s.sender s.sender s.buf = [] := by cases s.sender <;> rfl
      have c : readerSays s.reader s.reader = [] := by cases s.reader <;> rfl
      dsimp only
      rw [b, c]
      rfl
    refine TInv.of e (arrivals_nil (Nat.le_refl _)) ?_
    rw [List.append_nil, List.append_nil]
    refine ⟨h.calls, h.tag, h.sender, ?_⟩
    obtain ⟨a, b, i1, i2, i3, i4, i5⟩ := h.inbox
    exact ⟨a, b, i1, by rw [i2]; simp [unseen, h1], i3, i4, i5⟩

theorem tinv_exec {L : Label → Prop} {s : State} {tr : List TLine} {arr : List Bytes} (h : TExec L s tr arr) : TInv s tr arr := by
  induction h with
  | init => exact tinv_init
  | step _ _ _ hs ih => exact tinv_step ih hs

/-! ### the lines of the receiver -/

/-- the lines of a reply: the packet, and the entry of `c.RPC` if the tag is one -/
def lookLines (x : Bytes × Option Nat) : List TLine :=
  [.read x.1, .tagReply (pktTag x.1)] ++ if 1 ≤ (pktTag x.1).toNat ∧ (pktTag x.1).toNat ≤ NumTags then [.rpc x.2, .rrr x.2] else []

structure RInv (s : State) (tr : List TLine) : Prop where
  nodup : s.sending.Nodup
  sending : ∀ c ∈ s.sending, s.phase c = .sending
  lines : ∃ looked : List (Bytes × Option Nat), from_ .receiver tr = looked.flatMap lookLines ∧
    (∀ b c, (b, some c) ∈ looked → 1 ≤ (pktTag b).toNat → (pktTag b).toNat ≤ NumTags →
      s.phase c = .done b ∨ s.recv = .found c (pktTag b) b) ∧
    (∀ c b, s.phase c = .done b → (b, some c) ∈ looked) ∧
    (∀ c t b, s.recv = .found c t b → (b, some c) ∈ looked)

theorem rinv_init : RInv init [.starting, .beforeRead] where
  nodup := List.nodup_nil
  sending := nofun
  lines := ⟨[], rfl, nofun, nofun, nofun⟩

/-- a step that leaves the receiver and the answered calls -/
theorem RInv.same {s s' : State} {tr : List TLine} (h : RInv s tr) (hr : s'.recv = s.recv)
    (hn : s'.sending.Nodup) (hsd : ∀ c ∈ s'.sending, s'.phase c = .sending)
    (hd : ∀ c b, s'.phase c = .done b ↔ s.phase c = .done b) : RInv s' (tr ++ says s s') := by
  refine ⟨hn, hsd, ?_⟩
  obtain ⟨looked, i1, i2, i3, i4⟩ := h.lines
  refine ⟨looked, ?_, ?_, ?_, ?_⟩
  · have : from_ .receiver (says s s') = [] := by
      unfold says
      rw [hr]
      have c : recvSays s.recv s.recv s.rpc = [] := by cases s.recv <;> rfl
      rw [c, List.append_nil, from_append]
      have a : from_ .receiver (senderSays s.sender s'.sender s'.buf) = [] := by
        unfold senderSays
        split <;> rfl
      have b : from_ .receiver (readerSays s.reader s'.reader) = [] := by
        unfold readerSays
        split <;> rfl
      rw [a, b]
      rfl
    rw [from_append, this, List.append_nil, i1]
  · intro b c hm h1 h2
    rw [hr, hd]
    exact i2 b c hm h1 h2
  · intro c b hb
    exact i3 c b ((hd c b).1 hb)
  · intro c t b hb
    rw [hr] at hb
    exact i4 c t b hb

/-- a step of the receiver that says nothing -/
theorem RInv.mute {s s' : State} {tr : List TLine} (h : RInv s tr) (h1 : s'.sender = s.sender)
    (h3 : ∀ r, s.recv ≠ .got r) (hn : s'.sending.Nodup) (hsd : ∀ c ∈ s'.sending, s'.phase c = .sending)
    (hd : ∀ looked : List (Bytes × Option Nat), (∀ b c, (b, some c) ∈ looked → 1 ≤ (pktTag b).toNat → (pktTag b).toNat ≤ NumTags →
        s.phase c = .done b ∨ s.recv = .found c (pktTag b) b) →
      (∀ c b, s.phase c = .done b → (b, some c) ∈ looked) →
      (∀ c t b, s.recv = .found c t b → (b, some c) ∈ looked) →
      (∀ b c, (b, some c) ∈ looked → 1 ≤ (pktTag b).toNat → (pktTag b).toNat ≤ NumTags →
        s'.phase c = .done b ∨ s'.recv = .found c (pktTag b) b) ∧
      (∀ c b, s'.phase c = .done b → (b, some c) ∈ looked) ∧
      (∀ c t b, s'.recv = .found c t b → (b, some c) ∈ looked)) : RInv s' (tr ++ says s s') := by
  refine ⟨hn, hsd, ?_⟩
  obtain ⟨looked, i1, i2, i3, i4⟩ := h.lines
  refine ⟨looked, ?_, hd looked i2 i3 i4⟩
  have : from_ .receiver (says s s') = [] := by
    unfold says
    rw [h1]
    have a : from_ .receiver (senderSays s.sender s.sender s'.buf) = [] := by cases s.sender <;> rfl
    have b : from_ .receiver (readerSays s.reader s'.reader) = [] := by
      unfold readerSays
      split <;> rfl
    have c : recvSays s.recv s'.recv s.rpc = [] := by
      cases hr : s.recv with
      | got r => exact absurd hr (h3 r)
      | _ => cases s'.recv <;> rfl
    rw [from_append, from_append, a, b, c]
    rfl
  rw [from_append, this, List.append_nil, i1]

theorem rinv_step {s s' : State} {tr : List TLine} {l : Label} (h : RInv s tr) (hs : Step true l s s') :
    RInv s' (tr ++ says s s') := by
  cases hs with
  | call _ c m hp =>
    have hn : c ∉ s.sending := fun hc => by rw [h.sending c hc] at hp; cases hp
    refine h.same rfl (List.nodup_cons.2 ⟨hn, h.nodup⟩) ?_ ?_
    · intro d hd
      dsimp only
      rcases List.mem_cons.1 hd with rfl | hd'
      · rw [upd_same]
      · have hne : d ≠ c := by rintro rfl; exact hn hd'
        rw [upd_other _ _ hne]
        exact h.sending d hd'
    · intro d b
      dsimp only
      by_cases hdc : d = c
      · subst hdc; rw [upd_same, hp]; exact ⟨nofun, nofun⟩
      · rw [upd_other _ _ hdc]
  | getTag _ t ts ht => exact h.same rfl h.nodup h.sending fun _ _ => .rfl
  | enqueue _ a b c hsd hlen =>
    have hnd := h.nodup
    rw [hsd] at hnd
    have hmid := (List.perm_middle.nodup_iff (l₁ := a ++ c :: b)).1 hnd
    have hc : c ∉ a ++ b := (List.nodup_cons.1 hmid).1
    have hpc := h.sending c (by rw [hsd]; simp)
    refine h.same rfl (List.nodup_cons.1 hmid).2 ?_ ?_
    · intro d hd
      dsimp only
      have hne : d ≠ c := by rintro rfl; exact hc hd
      rw [upd_other _ _ hne]
      refine h.sending d ?_
      rw [hsd]
      rcases List.mem_append.1 hd with hd | hd <;> simp [hd]
    · intro d b
      dsimp only
      by_cases hdc : d = c
      · subst hdc; rw [upd_same, hpc]; exact ⟨nofun, nofun⟩
      · rw [upd_other _ _ hdc]
  | takeReq _ c cs h1 h2 => exact h.same rfl h.nodup h.sending fun _ _ => .rfl
  | takeTag _ c t ts h1 h2 => exact h.same rfl h.nodup h.sending fun _ _ => .rfl
  | putTag _ c t h1 => exact h.same rfl h.nodup h.sending fun _ _ => .rfl
  | store _ c t h1 => exact h.same rfl h.nodup h.sending fun _ _ => .rfl
  | write _ c t h1 => exact h.same rfl h.nodup h.sending fun _ _ => .rfl
  | reply _ x y c q p h1 h2 h3 h4 => exact h.same rfl h.nodup h.sending fun _ _ => .rfl
  | junk _ p h1 h2 => exact h.same rfl h.nodup h.sending fun _ _ => .rfl
  | close _ => exact h.same rfl h.nodup h.sending fun _ _ => .rfl
  | read _ r rs h1 h2 => exact h.same rfl h.nodup h.sending fun _ _ => .rfl
  | readEOF _ h1 h2 h3 => exact h.same rfl h.nodup h.sending fun _ _ => .rfl
  | handOver _ r h1 h2 =>
    refine h.mute rfl (by rw [h2]; nofun) h.nodup h.sending ?_
    intro looked i2 i3 i4
    refine ⟨fun b c hm t1 t2 => ?_, i3, nofun⟩
    rcases i2 b c hm t1 t2 with hd | hd
    · exact .inl hd
    · rw [h2] at hd; cases hd
  | handOverNil _ h1 h2 =>
    refine h.mute rfl (by rw [h2]; nofun) h.nodup h.sending ?_
    intro looked i2 i3 i4
    refine ⟨fun b c hm t1 t2 => ?_, i3, nofun⟩
    rcases i2 b c hm t1 t2 with hd | hd
    · exact .inl hd
    · rw [h2] at hd; cases hd
  | lookup _ r h1 =>
    refine ⟨h.nodup, h.sending, ?_⟩
    obtain ⟨looked, i1, i2, i3, i4⟩ := h.lines
    have hng : ∀ q, lookup true s.rpc r.bytes ≠ .got q := by
      intro q
      unfold lookup
      dsimp only
      split
      · nofun
      · split
        · nofun
        · split
          · nofun
          · split <;> nofun
    have hgood : ∀ t : Tag, ¬ (t < 1 ∨ t.toNat - 1 ≥ NumTags) ↔ (1 ≤ t.toNat ∧ t.toNat ≤ NumTags) := by
      intro t
      have hN : 1 ≤ NumTags := by decide
      rw [UInt16.lt_iff_toNat_lt, show (1 : Tag).toNat = 1 from rfl]
      omega
    have e : from_ .receiver (says s { s with recv := lookup true s.rpc r.bytes }) =
        lookLines (r.bytes, s.rpc ((pktTag r.bytes).toNat - 1)) := by
      unfold says
      rw [h1]
      have b : senderSays s.sender s.sender s.buf = [] := by cases s.sender <;> rfl
      have c : readerSays s.reader s.reader = [] := by cases s.reader <;> rfl
      dsimp only
      rw [b, c]
      have d : recvSays (.got r) (lookup true s.rpc r.bytes) s.rpc = lookLines (r.bytes, s.rpc ((pktTag r.bytes).toNat - 1)) := by
        generalize lookup true s.rpc r.bytes = v at hng
        unfold lookLines
        dsimp only
        by_cases hb : pktTag r.bytes < 1 ∨ (pktTag r.bytes).toNat - 1 ≥ NumTags
        · rw [if_neg (fun hc => (hgood _).2 hc hb)]
          unfold recvSays
          cases v with
          | got q => exact absurd rfl (hng q)
          | _ => dsimp only; rw [if_pos hb]
        · rw [if_pos ((hgood _).1 hb)]
          unfold recvSays
          cases v with
          | got q => exact absurd rfl (hng q)
          | _ => dsimp only; rw [if_neg hb]
      rw [d]
      show from_ .receiver (lookLines _) = _
      unfold lookLines
      split <;> rfl
    refine ⟨looked ++ [(r.bytes, s.rpc ((pktTag r.bytes).toNat - 1))], ?_, ?_, ?_, ?_⟩
    · rw [from_append, e, i1]
      simp
    · intro b c hm t1 t2
      rcases List.mem_append.1 hm with hm | hm
      · rcases i2 b c hm t1 t2 with hd | hd
        · exact .inl hd
        · rw [h1] at hd; cases hd
      · simp only [List.mem_singleton, Prod.mk.injEq] at hm
        obtain ⟨rfl, hc⟩ := hm
        right
        have hb := (hgood _).2 ⟨t1, t2⟩
        dsimp only
        unfold lookup
        dsimp only
        rw [if_neg (fun hx => hb (.inl hx)), if_neg (fun hx => hb (.inr hx)), if_neg (by decide), ← hc]
    · intro c b hb
      exact List.mem_append_left _ (i3 c b hb)
    · intro c t b hb
      refine List.mem_append_right _ ?_
      dsimp only at hb
      unfold lookup at hb
      dsimp only at hb
      split at hb
      · cases hb
      · split at hb
        · cases hb
        · split at hb
          · cases hb
          · split at hb
            · cases hb
            · rename_i hd
              cases hb
              rw [hd]
              simp
  | deliver _ c t b h1 h2 =>
    have hn : c ∉ s.sending := fun hc => by rw [h.sending c hc] at h2; cases h2
    refine h.mute rfl (by rw [h1]; nofun) h.nodup ?_ ?_
    · intro d hd
      dsimp only
      have hne : d ≠ c := by rintro rfl; exact hn hd
      rw [upd_other _ _ hne]
      exact h.sending d hd
    · intro looked i2 i3 i4
      refine ⟨?_, ?_, nofun⟩
      · intro b' d hm t1 t2
        left
        dsimp only
        rcases i2 b' d hm t1 t2 with hd | hd
        · have hne : d ≠ c := by rintro rfl; rw [h2] at hd; cases hd
          rw [upd_other _ _ hne]
          exact hd
        · rw [h1] at hd
          cases hd
          rw [upd_same]
      · intro d b' hd
        dsimp only at hd
        by_cases hdc : d = c
        · subst hdc
          rw [upd_same] at hd
          cases hd
          exact i4 d t b h1
        · rw [upd_other _ _ hdc] at hd
          exact i3 d b' hd
  | retag _ t h1 h2 =>
    refine h.mute rfl (by rw [h1]; nofun) h.nodup h.sending ?_
    intro looked i2 i3 i4
    refine ⟨fun b c hm t1 t2 => ?_, i3, nofun⟩
    rcases i2 b c hm t1 t2 with hd | hd
    · exact .inl hd
    · rw [h1] at hd; cases hd

theorem rinv_exec {L : Label → Prop} {s : State} {tr : List TLine} {arr : List Bytes} (h : TExec L s tr arr) : RInv s tr := by
  induction h with
  | init => exact rinv_init
  | step _ _ _ hs ih => exact rinv_step ih hs

/-! ### C116 -/

/-- A tracer changes nothing: the states a client with a tracer gets to are those of the executions of `Step true`,
and each of them comes with a trace. -/
theorem C116_transparent (L : Label → Prop) (s : State) : (∃ tr arr, TExec L s tr arr) ↔ Exec true L init s := by
  constructor
  · rintro ⟨tr, arr, h⟩
    induction h with
    | init => exact .refl _
    | step _ hl ha hs ih => exact .step _ _ _ _ ih hl ha hs
  · intro h
    induction h with
    | refl => exact ⟨_, _, .init⟩
    | step s s' l _ hl ha hs ih =>
      obtain ⟨tr, arr, ht⟩ := ih
      exact ⟨_, _, .step ht hl ha hs⟩

/-- The lines of the sender are those of the packets it has written, in the order of the writes: the tag of the
packet, twice, and the packet.  What follows are lines of the request it works on, of which the last, the packet,
is there only when the next step writes just that packet. -/
theorem C116_sent (L : Label → Prop) (s : State) (tr : List TLine) (arr : List Bytes) (h : TExec L s tr arr) :
    ∃ begun, from_ .sender tr = s.written.flatMap (fun x => reqLines x.2) ++ begun ∧
      ((∀ c t, s.sender ≠ .stored c t) → ∃ t, begun <+: [.tagReq t, .tagReq t]) ∧
      ∀ c t, s.sender = .stored c t → begun = reqLines (s.buf c) ∧ pktTag (s.buf c) = t := by
  have hi := tinv_exec h
  refine ⟨begunLines s, hi.sender, ?_, ?_⟩
  · intro hn
    unfold begunLines
    cases hs : s.sender with
    | stored c t => exact absurd hs (hn c t)
    | idle => exact ⟨0, List.nil_prefix⟩
    | haveReq c => exact ⟨0, List.nil_prefix⟩
    | haveTag c t => exact ⟨t, ⟨[.tagReq t], rfl⟩⟩
    | tagged c t => exact ⟨t, ⟨[], rfl⟩⟩
  · intro c t hs
    have ht := hi.tag
    rw [hs] at ht
    dsimp only at ht
    refine ⟨?_, ht⟩
    unfold begunLines reqLines
    rw [hs, ht]

theorem writes_from (tr : List TLine) : writes tr = writes (from_ .sender tr) := by
  induction tr with
  | nil => rfl
  | cons x xs ih =>
    cases x <;> simp_all [writes, from_, TLine.origin]

/-- The packets of the lines "Write …" are those written to the network, in order, and at most one that is about to
be written. -/
theorem C116_writes (L : Label → Prop) (s : State) (tr : List TLine) (arr : List Bytes) (h : TExec L s tr arr) :
    writes tr = s.written.map Prod.snd ∨ ∃ c t, s.sender = .stored c t ∧ writes tr = s.written.map Prod.snd ++ [s.buf c] := by
  have hi := (tinv_exec h).sender
  have hw : writes tr = s.written.map Prod.snd ++ writes (begunLines s) := by
    rw [writes_from, hi]
    unfold writes
    rw [List.filterMap_append]
    congr 1
    generalize s.written = w
    induction w with
    | nil => rfl
    | cons x xs ih =>
      rw [List.flatMap_cons, List.filterMap_append, ih]
      rfl
  rw [hw]
  unfold begunLines
  cases hs : s.sender with
  | stored c t => exact .inr ⟨c, t, rfl, by simp [writes]⟩
  | _ => exact .inl (by simp [writes])

/-- The lines of the reader tell of the packets that have arrived, in the order of their arrival, and the packets
of the lines "Read …" are the first of these: what is missing is the packet handed over to the receiver and not
looked at, the packet the reader holds, and what it has not read. -/
theorem C116_received (L : Label → Prop) (s : State) (tr : List TLine) (arr : List Bytes) (h : TExec L s tr arr) :
    arr = reads tr ++ unseen s ++ held s ++ s.fromNet.map (·.bytes) ∧
      from_ .reader tr = [.starting, .beforeRead] ++ (reads tr ++ unseen s).flatMap pktLines ++
        (held s).flatMap (fun b => (pktLines b).take 2) ∧
      replyTags tr = (reads tr).map pktTag := by
  obtain ⟨a, b, i1, rfl, i3, i4, i5⟩ := (tinv_exec h).inbox
  rw [i4, i5, i1, i3]
  simp

theorem reads_from (tr : List TLine) : reads tr = reads (from_ .receiver tr) := by
  induction tr with
  | nil => rfl
  | cons x xs ih =>
    cases x <;> simp_all [reads, from_, TLine.origin]

/-- The lines of the receiver tell which call each reply is for: a call has got the reply `b` only if the trace
names it beside `b`, and if the trace names a call beside `b`, the call has got `b` or the receiver is about to
give it to the call. -/
theorem C116_replies (L : Label → Prop) (s : State) (tr : List TLine) (arr : List Bytes) (h : TExec L s tr arr) :
    ∃ looked : List (Bytes × Option Nat), from_ .receiver tr = looked.flatMap lookLines ∧ looked.map Prod.fst = reads tr ∧
      (∀ c b, s.phase c = .done b → (b, some c) ∈ looked) ∧
      ∀ b c, (b, some c) ∈ looked → 1 ≤ (pktTag b).toNat → (pktTag b).toNat ≤ NumTags →
        s.phase c = .done b ∨ s.recv = .found c (pktTag b) b := by
  obtain ⟨looked, i1, i2, i3, i4⟩ := (rinv_exec h).lines
  refine ⟨looked, i1, ?_, i3, i2⟩
  rw [reads_from, i1]
  clear i1 i2 i3 i4
  induction looked with
  | nil => rfl
  | cons x xs ih =>
    have : reads (lookLines x) = [x.1] := by
      unfold lookLines
      split <;> rfl
    rw [List.flatMap_cons, reads_append, this, ← ih]
    rfl

/-- With a peer that only answers requests, the request of a finished call and the reply to it are both in the trace. -/
theorem C116_finished (s : State) (tr : List TLine) (arr : List Bytes) (h : TExec Serving s tr arr) (c : Nat) (b : Bytes)
    (hd : s.phase c = .done b) :
    b ∈ reads tr ∧ ∃ m t, s.msg c = some m ∧ m.packet t ∈ writes tr ∧ t ∈ replyTags tr ∧ (c, m.packet t, b) ∈ s.replied := by
  obtain ⟨looked, -, i2, i3, -⟩ := C116_replies _ s tr arr h
  have hb : b ∈ reads tr := by rw [← i2]; exact List.mem_map.2 ⟨_, i3 c b hd, rfl⟩
  have he := (C116_transparent Serving s).1 ⟨tr, arr, h⟩
  obtain ⟨m, t, hm, hw, hr, ht⟩ := (C28_right_reply s he).1 c b hd
  have hp := ((serving_exec (fun _ h => h) inv_init open_init he).1.replied _ hr).2.2
  refine ⟨hb, m, t, hm, ?_, ?_, hr⟩
  · rcases C116_writes _ s tr arr h with e | ⟨_, _, -, e⟩
    · rw [e]; exact List.mem_map.2 ⟨_, hw, rfl⟩
    · rw [e]; exact List.mem_append_left _ (List.mem_map.2 ⟨_, hw, rfl⟩)
  · rw [(C116_received _ s tr arr h).2.2]
    refine List.mem_map.2 ⟨b, hb, ?_⟩
    exact UInt16.toNat_inj.1 (by rw [pktTag_eq (pktLen_seven hp), ht])

/-- C116: a trace with a finished call in it -/
example : ∃ s tr arr b, TExec Serving s tr arr ∧ s.phase 0 = .done b := by
  obtain ⟨s, b, he, hb, -⟩ := exec_call (.clunk { OFID := 7 })
  obtain ⟨tr, arr, h⟩ := (C116_transparent Serving s).2 he
  exact ⟨s, tr, arr, b, h, hb⟩

theorem TExec.next {L : Label → Prop} {s s' : State} {tr tr' : List TLine} {arr : List Bytes} {l : Label} (h : TExec L s tr arr)
    (hl : L l) (ha : Alive s) (hs : Step true l s s') (x : List TLine) (hx : says s s' = x) (ha' : s'.fromNet = s.fromNet)
    (ht : tr ++ x = tr') : TExec L s' tr' arr := by
  have := TExec.step h hl ha hs
  rw [hx, arrivals_nil (by rw [ha']; exact Nat.le_refl _), List.append_nil, ht] at this
  exact this

/-- what the trace gets of one request -/
theorem traced_call (s : State) (t : Tag) (ts : List Tag) (m : TMsg) (tr : List TLine) (arr : List Bytes) (h : TExec anyone s tr arr)
    (h1 : s.phase 0 = .idle) (h2 : s.sending = []) (h3 : s.fromClient = []) (h4 : s.sender = .idle) (h5 : s.tags = t :: ts)
    (h7 : s.recv = .idle) (h8 : s.reader = .idle) :
    ∃ s', TExec anyone s' (tr ++ [.tagReq t, .tagReq t, .write (m.packet t)]) arr ∧ s'.written = s.written ++ [(0, m.packet t)] := by
  have ha : Alive s := by simp [Alive, h7]
  have e : (encodeT {} 0 m).bytes = m.packet 0 := C04_wire_layout.1 ..
  have s1 := h.next (tr' := tr) trivial ha (.call s 0 m h1) [] (says_nil rfl rfl rfl) rfl (List.append_nil _)
  have s2 := s1.next (tr' := tr) trivial ha (.enqueue _ [] [] 0 (by simp [h2]) (by simp [h3, NumTags])) [] (says_nil rfl rfl rfl) rfl
    (List.append_nil _)
  have s3 := s2.next (tr' := tr) trivial ha (.takeReq _ 0 [] h4 (by simp [h3])) [] (by simp [says, senderSays, readerSays, recvSays, h4, h7, h8])
    rfl (List.append_nil _)
  have s4 := s3.next (tr' := tr ++ [.tagReq t]) trivial ha (.takeTag _ 0 t ts rfl h5) [.tagReq t]
    (by simp [says, senderSays, readerSays, recvSays, h7, h8]) rfl rfl
  have s5 := s4.next (tr' := tr ++ [.tagReq t] ++ [.tagReq t]) trivial ha (.putTag _ 0 t rfl) [.tagReq t]
    (by simp [says, senderSays, readerSays, recvSays, h7, h8]) rfl rfl
  have s6 := s5.next (tr' := tr ++ [.tagReq t] ++ [.tagReq t] ++ [.write (m.packet t)]) trivial ha (.store _ 0 t rfl) [.write (m.packet t)]
    (by simp [says, senderSays, readerSays, recvSays, h7, h8, upd, e, setTag_packet]) rfl rfl
  have s7 := s6.next (tr' := tr ++ [.tagReq t] ++ [.tagReq t] ++ [.write (m.packet t)]) trivial ha (.write _ 0 t rfl) []
    (by simp [says, senderSays, readerSays, recvSays, h7, h8]) rfl (List.append_nil _)
  refine ⟨_, by simpa using s7, ?_⟩
  simp [upd, e, setTag_packet]

/-- C116: the trace of a client that has sent one request -/
example : ∃ s, TExec anyone s
    [.starting, .beforeRead, .tagReq 1, .tagReq 1, .write ((TMsg.clunk { OFID := 7 }).packet 1)] [] ∧
    s.written = [(0, (TMsg.clunk { OFID := 7 }).packet 1)] := by
  obtain ⟨ts, hts⟩ := init_tags
  exact traced_call init 1 ts _ _ [] .init rfl rfl rfl rfl hts rfl rfl

end Ninep.Client
