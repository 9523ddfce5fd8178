import Verif.Lemmas.ClientProgress
import Verif.Lemmas.Stream
import Verif.Client.Calls

set_option linter.unusedSimpArgs false
set_option linter.unusedVariables false

/-
Properties C25–C35: the client.  All of them quantify over all executions (all interleavings of any number
of callers, the goroutines of the client and the peer) from a fresh client.
-/

namespace Ninep.Client
open Spec

theorem tagField_packet (m : TMsg) (t : Tag) : tagField (m.packet t) = t.toNat := by
  have : ((m.packet t).drop 5).take 2 = le 2 t.toNat := by
    simp [TMsg.packet, TMsg.body, Spec.packet, List.drop_append, List.take_append, ← List.append_assoc]
  rw [tagField, this, leVal_le, Nat.mod_eq_of_lt]
  have := t.toNat_lt
  omega

/-- executions with any peer whatsoever -/
def anyone : Label → Prop := fun _ => True

/-- **C25** Tags are legal: every request on the wire is the encoding of the request of its call, with a
tag from 1 to 65534 — whatever the peer sends, with or without a tracer. -/
theorem C25_tags_legal (trace : Bool) (s : State) (he : Exec trace anyone init s) (c : Nat) (q : Bytes)
    (hq : (c, q) ∈ s.written) :
    1 ≤ tagField q ∧ tagField q ≤ 65534 ∧ ∃ m t, s.msg c = some m ∧ q = m.packet t := by
  obtain ⟨m, t, hl, hm, rfl⟩ := (any_exec any_init he).written _ hq
  rw [tagField_packet]
  exact ⟨hl.1, hl.2, m, t, hm, rfl⟩

/-- **C26** The requests that the peer has not answered have different tags, and so have the replies on
their way: no tag occurs twice among them. -/
theorem C26_tags_distinct (s : State) (he : Exec true Serving init s) :
    ((s.wire.map Prod.snd ++ s.fromNet.map Reply.bytes).map tagField).Nodup := by
  have hi := (serving_exec (fun _ h => h) inv_init open_init he).1
  have hlen : ∀ p ∈ s.wire.map Prod.snd ++ s.fromNet.map Reply.bytes, (pktTag p).toNat = tagField p := by
    intro p hp
    simp only [List.mem_append, List.mem_map] at hp
    rcases hp with ⟨x, hx, rfl⟩ | ⟨r, hr, rfl⟩
    · obtain ⟨m, t, -, -, hq⟩ := hi.wire x hx
      rw [hq]; exact pktTag_eq (packetT_length m t)
    · obtain ⟨c, q, -, hq⟩ := hi.answered r (by simp [replies, hr])
      exact pktTag_eq (pktLen_seven (hi.replied _ hq).2.2)
  rw [← List.map_congr_left hlen]
  have hinj : ∀ l : List Bytes, (l.map pktTag).Nodup → (l.map fun p => (pktTag p).toNat).Nodup := by
    intro l hl
    unfold List.Nodup at *
    rw [List.pairwise_map] at *
    exact hl.imp fun h h' => h (UInt16.toNat_inj.1 h')
  apply hinj
  rw [List.nodup_iff_count]
  intro t
  have h := hi.tags t
  have e : (s.wire.map Prod.snd ++ s.fromNet.map Reply.bytes).map pktTag =
      (s.wire.map wireFl ++ s.fromNet.map Reply.fl).map Prod.snd := by
    simp [Function.comp_def, wireFl, Reply.fl]
  rw [e]
  simp only [allTags, flights, List.map_append, List.count_append] at h ⊢
  have : (if Legal t then 1 else 0) ≤ 1 := by split <;> omega
  omega

/-- the tags that belong to a request or reply: with the sender, in requests and replies on the network,
with the reader, with the receiver -/
def inFlight (s : State) : List Tag :=
  (match s.sender with
    | .haveTag _ t => [t] | .tagged _ t => [t] | .stored _ t => [t] | _ => []) ++
  s.wire.map (fun x => pktTag x.2) ++ s.fromNet.map (fun r => pktTag r.bytes) ++
  (match s.reader with | .holding r => [pktTag r.bytes] | _ => []) ++
  (match s.recv with | .got r => [pktTag r.bytes] | .found _ t _ => [t] | .retag t => [t] | _ => [])

/-- **C27** Tags are conserved: free tags, tags in flight and tags handed out by `GetTag` together are
exactly the tags 1 … 65534, each once; and returning a tag to the pool never blocks. -/
theorem C27_tags_conserved (s : State) (he : Exec true Serving init s) :
    (s.tags ++ inFlight s ++ s.taken).Perm ((List.range 65534).map fun i => UInt16.ofNat (i + 1)) ∧
    (∀ t, s.recv = .retag t → s.tags.length < NumTags) := by
  have hi := (serving_exec (fun _ h => h) inv_init open_init he).1
  refine ⟨?_, fun t ht => retag_room hi ht⟩
  have h0 : (List.range 65534).map (fun i => UInt16.ofNat (i + 1)) = init.tags := by simp [init, NOTAG]
  rw [h0, List.perm_iff_count]
  intro t
  rw [init_count, ← hi.tags t]
  simp only [inFlight, allTags, flights, List.map_append, List.map_map, List.count_append]
  have e1 : (Prod.snd ∘ wireFl) = fun x => pktTag x.2 := rfl
  have e2 : (Prod.snd ∘ Reply.fl) = fun r => pktTag r.bytes := rfl
  rw [e1, e2]
  cases s.sender <;> cases s.reader <;> cases s.recv <;>
    simp [Sender.tags, Sender.fl, Reader.fl, Recv.fl, Recv.tags, Reply.fl, List.count_cons] <;> omega

/-- **C28** Replies reach their callers.  What a call returns from its wait is the packet that the peer
sent in answer to the request of this very call (and carries its tag); each call's request is on the wire
at most once and is answered at most once, so no reply is handed to two calls. -/
theorem C28_right_reply (s : State) (he : Exec true Serving init s) :
    (∀ c b, s.phase c = .done b → ∃ m t, s.msg c = some m ∧
      (c, m.packet t) ∈ s.written ∧ (c, m.packet t, b) ∈ s.replied ∧ tagField b = t.toNat) ∧
    (s.written.map Prod.fst).Nodup ∧ (s.replied.map Prod.fst).Nodup := by
  have hi := (serving_exec (fun _ h => h) inv_init open_init he).1
  refine ⟨fun c b h => ?_, ?_, ?_⟩
  · obtain ⟨q, hq⟩ := hi.done c b h
    obtain ⟨hw, ht, hp⟩ := hi.replied _ hq
    obtain ⟨m, t, -, hm, rfl⟩ := hi.written _ hw
    dsimp only at *
    exact ⟨m, t, hm, hw, hq, by rw [← pktTag_eq (pktLen_seven hp), ht, pktTag_packet]⟩
  · rw [List.nodup_iff_count]
    intro c
    have h1 := hi.wonce c
    have h2 := hi.once c
    have h3 := hi.calls c
    have h4 : (s.wire.map Prod.fst).count c ≤ ((s.wire.map wireFl).map Prod.fst).count (some c) := by
      have : (s.wire.map wireFl).map Prod.fst = (s.wire.map Prod.fst).map some := by simp [wireFl, Function.comp_def]
      rw [this]
      exact List.count_le_count_map
    simp only [allCalls, flights, List.map_append, List.count_append] at h2 h3
    cases hp : s.phase c <;> simp only [hp, Phase.w, Phase.d] at h2 h3 <;> omega
  · rw [List.nodup_iff_count]
    intro c
    have h2 := hi.once c
    have h3 := hi.calls c
    simp only [allCalls, flights, List.map_append, List.count_append] at h2 h3
    cases hp : s.phase c <;> simp only [hp, Phase.w, Phase.d] at h2 h3 <;> omega

/-! ### C29 -/

/-- steps of the client and answers of the peer; no new calls -/
def settling : Label → Prop := Internal

theorem settling_taken {s s' : State} (h : Exec true settling s s') : s'.taken = s.taken := by
  induction h with
  | refl => rfl
  | step s' s'' l _ hl _ hst ih =>
    rw [← ih]
    cases hst <;> first | rfl | exact hl.elim

theorem settling_serving : ∀ l, settling l → Serving l := by
  intro l; cases l <;> simp [settling, Internal, Serving]

/-- a started call stays started -/
theorem started_step {tr : Bool} {s s' : State} {l : Label} (h : Step tr l s s') (c : Nat) (hc : s.phase c ≠ .idle) :
    s'.phase c ≠ .idle := by
  cases h <;> first | exact hc | skip
  all_goals
    dsimp only
    unfold upd
    split
    · simp
    · exact hc

theorem started_exec {tr : Bool} {L : Label → Prop} {s s' : State} (h : Exec tr L s s') (c : Nat)
    (hc : s.phase c ≠ .idle) : s'.phase c ≠ .idle := by
  induction h with
  | refl => exact hc
  | step s' s'' l _ _ _ hst ih => exact started_step hst c ih

/-- **C29** No lost calls.  From every reachable state, if no new calls are made and at least one tag has
not been taken away by `GetTag`: there is no infinite execution; every execution that cannot be continued
has answered all started calls; and there is such an execution. -/
theorem C29_all_answered (s : State) (he : Exec true Serving init s) (ht : s.taken.length < 65534) :
    (¬ ∃ f : Nat → State, f 0 = s ∧ ∀ n, ∃ l, settling l ∧ Step true l (f n) (f (n + 1))) ∧
    (∀ s', Exec true settling s s' → (∀ l s'', settling l → ¬ Step true l s' s'') →
      ∀ c, s.phase c ≠ .idle → ∃ b, s'.phase c = .done b) ∧
    (∃ s', Exec true settling s s' ∧ ∀ l s'', settling l → ¬ Step true l s' s'') := by
  have hs := serving_exec (fun _ h => h) inv_init open_init he
  refine ⟨?_, ?_, ?_⟩
  · rintro ⟨f, h0, hf⟩
    have : ∀ n, work (f n) + n ≤ work (f 0) := by
      intro n
      induction n with
      | zero => simp
      | succ n ih =>
        obtain ⟨l, hl, hst⟩ := hf n
        have := work_step hl hst
        omega
    have := this (work (f 0) + 1)
    omega
  · intro s' he' hst c hc
    obtain ⟨hi, ho⟩ := serving_exec settling_serving hs.1 hs.2 he'
    have hr : s'.recv = .idle := by
      rcases stuck_recv hi hst with h | h
      · exact h
      · exact absurd h ho.recv
    have hq := stuck_all hi hst hr ho.reader (by rw [settling_taken he']; exact ht)
    rcases quiet_calls hi hr hq c with h | h
    · exact absurd h (started_exec he' c hc)
    · exact h
  · have key : ∀ n (s : State), work s = n → Inv s → Open s →
        ∃ s', Exec true settling s s' ∧ ∀ l s'', settling l → ¬ Step true l s' s'' := by
      intro n
      induction n using Nat.strongRecOn with
      | ind n ih =>
        intro s hn hi ho
        by_cases h : ∃ l s', settling l ∧ Step true l s s'
        · obtain ⟨l, s', hl, hst⟩ := h
          have hsv := settling_serving l hl
          obtain ⟨s'', h1, h2⟩ := ih (work s') (by rw [← hn]; exact work_step hl hst) s' rfl
            (inv_step (serving_abiding l hsv) hi hst) (open_step hsv hi ho hst)
          refine ⟨s'', ?_, h2⟩
          have h0 : Exec true settling s s' := Exec.step s s s' l (Exec.refl s) hl ho.recv hst
          clear h2
          induction h1 with
          | refl => exact h0
          | step a b l' _ hl' ha hab ih' => exact Exec.step s a b l' ih' hl' ha hab
        · exact ⟨s, Exec.refl s, fun l s'' hl hst => h ⟨l, s'', hl, hst⟩⟩
    exact key _ s rfl hs.1 hs.2

/-- **C30** With a tracer and a peer that abides by the protocol the client does not panic. -/
theorem C30_no_panic (s : State) (he : Exec true Serving init s) : s.recv ≠ .panicked :=
  (serving_exec (fun _ h => h) inv_init open_init he).2.recv

/-- A call on a fresh client can be made and is answered: the executions above are not empty. -/
theorem exec_call (m : TMsg) : ∃ s b, Exec true Serving init s ∧ s.phase 0 = .done b ∧ s.msg 0 = some m ∧ Stuck s := by
  have h1 := Step.call (trace := true) init 0 m rfl
  have e1 := Exec.step (L := Serving) init init _ .call (Exec.refl init) trivial (by simp [Alive, init]) h1
  obtain ⟨-, h2, s', h3, h4⟩ := C29_all_answered _ e1 (by simp [init])
  obtain ⟨b, hb⟩ := h2 s' h3 h4 0 (by simp [upd])
  have e2 : Exec true Serving init s' ∧ s'.msg 0 = some m := by
    clear h4 hb h2
    induction h3 with
    | refl => exact ⟨e1, by simp [upd]⟩
    | step a b l' _ hl' ha hab ih' =>
      refine ⟨Exec.step _ a b l' ih'.1 (settling_serving l' hl') ha hab, ?_⟩
      rw [← ih'.2]
      cases hab <;> first | rfl | exact hl'.elim
  exact ⟨s', b, e2.1, hb, e2.2, h4⟩

/-- C25–C30: a state with a finished call, its request written and its reply delivered -/
example : ∃ s b c q, Exec true Serving init s ∧ s.phase 0 = .done b ∧ (c, q) ∈ s.written := by
  obtain ⟨s, b, he, hb, -⟩ := exec_call (.clunk { OFID := 7 })
  obtain ⟨m, t, -, hw, -⟩ := (C28_right_reply s he).1 0 b hb
  exact ⟨s, b, 0, _, he, hb, hw⟩

/-- C29: with one open call -/
example : ∃ s, Exec true Serving init s ∧ s.taken.length < 65534 ∧ s.phase 0 ≠ .idle :=
  ⟨_, Exec.step init init _ .call (Exec.refl init) trivial (by simp [Alive, init])
    (Step.call init 0 (.flush { OTag := 3 }) rfl), by simp [init], by simp [upd]⟩

/-! ### C31 -/

/-- the way of an unsolicited packet from the network to the lookup -/
theorem exec_junk {s0 s : State} {tr : Bool} (he : Exec tr anyone s0 s) (h1 : s.reader = .idle) (h2 : s.fromNet = [])
    (h3 : s.recv = .idle) (h4 : s.closed = false) (p : Bytes) (hp : IsPacket p) :
    Exec tr anyone s0 { s with recv := lookup tr s.rpc p } := by
  have e1 := Exec.step s0 s _ .junk he trivial (by simp [Alive, h3]) (Step.junk s p hp h4)
  have e2 := Exec.step s0 _ _ .client e1 trivial (by simp [Alive, h3]) (Step.read _ ⟨none, p⟩ [] (by exact h1) (by simp [h2]))
  have e3 := Exec.step s0 _ _ .client e2 trivial (by simp [Alive, h3]) (Step.handOver _ ⟨none, p⟩ rfl (by exact h3))
  have e4 := Exec.step s0 _ _ .client e3 trivial (by simp [Alive]) (Step.lookup _ ⟨none, p⟩ rfl)
  have : ({ s with recv := lookup tr s.rpc p } : State) =
      { s with recv := lookup tr s.rpc p, fromNet := [], reader := .idle } := by
    rw [← h1, ← h2]
  rw [this]
  exact e4

theorem lookup_none {tr : Bool} {rpc : Nat → Option Nat} {p : Bytes} (h : rpc ((pktTag p).toNat - 1) = none) :
    lookup tr rpc p = .panicked := by
  unfold lookup
  dsimp only
  split
  · rfl
  · split
    · rfl
    · split
      · rfl
      · rw [h]

/-- **C31** is false: any packet that the server sends before the first request makes a fresh client
panic. -/
theorem C31_counterexample (p : Bytes) (hp : IsPacket p) :
    ∃ s, Exec true anyone init s ∧ s.recv = .panicked :=
  ⟨_, exec_junk (Exec.refl init) rfl rfl rfl rfl p hp, lookup_none (rpc := init.rpc) (p := p) rfl⟩

example : IsPacket ((RMsg.flush {}).packet 9) := by simp [IsPacket, RMsg.packet, Spec.packet, RMsg.body, RMsg.fields]

/-- the receiver hangs in `rrr.Reply <- r.b` -/
theorem hang_step {tr : Bool} {l : Label} {s s' : State} {c : Nat} {t : Tag} {b x : Bytes}
    (ha : Any s) (hr : s.recv = .found c t b) (hc : s.phase c = .done x) (h : Step tr l s s') :
    s'.recv = .found c t b ∧ s'.phase c = .done x ∧ (∀ d y, s'.phase d = .done y → s.phase d = .done y) := by
  have keep (f : Phase) (d : Nat) (hd : s.phase d ≠ .done x) (hf : ∀ y, f ≠ .done y) :
      upd s.phase d f c = .done x ∧ ∀ e y, upd s.phase d f e = .done y → s.phase e = .done y := by
    have hdc : c ≠ d := by rintro rfl; exact hd hc
    refine ⟨by rw [upd_other _ _ hdc]; exact hc, fun e y he => ?_⟩
    by_cases hed : e = d
    · subst hed; rw [upd_same] at he; exact absurd he (hf y)
    · rwa [upd_other _ _ hed] at he
  cases h with
  | call _ d m hp => exact ⟨hr, keep .sending d (by rw [hp]; simp) (by simp)⟩
  | enqueue _ y z d h1 h2 =>
    have hd : s.phase d ≠ .done x := by
      intro hd
      have := ha.sending d
      simp [h1, hd, Phase.s] at this
    exact ⟨hr, keep .waiting d hd (by simp)⟩
  | getTag | takeReq | takeTag | putTag | store | write | reply | junk | close | read | readEOF =>
    exact ⟨hr, hc, fun _ _ h => h⟩
  | handOver _ _ _ h => rw [hr] at h; cases h
  | handOverNil _ _ h => rw [hr] at h; cases h
  | lookup _ _ h => rw [hr] at h; cases h
  | retag _ _ h => rw [hr] at h; cases h
  | deliver _ d _ _ h h' => rw [hr] at h; cases h; rw [hc] at h'; cases h'


theorem hang_exec {tr : Bool} {L : Label → Prop} {s s' : State} {c : Nat} {t : Tag} {b x : Bytes}
    (ha : Any s) (hr : s.recv = .found c t b) (hc : s.phase c = .done x) (h : Exec tr L s s') :
    Any s' ∧ s'.recv = .found c t b ∧ s'.phase c = .done x ∧ (∀ d y, s'.phase d = .done y → s.phase d = .done y) := by
  induction h with
  | refl => exact ⟨ha, hr, hc, fun _ _ h => h⟩
  | step s' s'' l _ _ _ hst ih =>
    obtain ⟨h0, h1, h2, h3⟩ := ih
    obtain ⟨g1, g2, g3⟩ := hang_step h0 h1 h2 hst
    exact ⟨any_step h0 hst, g1, g2, fun d y h => h3 d y (g3 d y h)⟩

/-- **C31** is false in another way: a second reply to a request that has been answered blocks the client
for ever.  In every reachable state in which nothing is going on, a packet with the tag of any request
written before leads to a state after which no call returns any more. -/
theorem C31_counterexample_duplicate (s : State) (he : Exec true Serving init s) (ht : s.taken.length < 65534)
    (hq : ∀ l s', settling l → ¬ Step true l s s') (c : Nat) (q p : Bytes) (hw : (c, q) ∈ s.written)
    (hp : IsPacket p) (htag : tagField p = tagField q) :
    ∃ s', Exec true anyone init s' ∧ s'.phase = s.phase ∧ s'.recv ≠ .panicked ∧
      ∀ s'', Exec true anyone s' s'' → ∀ d, (∀ y, s.phase d ≠ .done y) → ∀ y, s''.phase d ≠ .done y := by
  obtain ⟨hi, ho⟩ := serving_exec (fun _ h => h) inv_init open_init he
  have hea : Exec true anyone init s := by
    clear ht hq hw hi ho
    induction he with
    | refl => exact Exec.refl _
    | step a b l _ _ hal hst ih => exact Exec.step _ a b l ih trivial hal hst
  have ha := any_exec any_init hea
  have hr : s.recv = .idle := by
    rcases stuck_recv hi hq with h | h
    · exact h
    · exact absurd h ho.recv
  obtain ⟨h1, h2, h3, h4, h5, h6⟩ := stuck_all hi hq hr ho.reader ht
  have hjunk := exec_junk hea h6 h5 hr ho.closed p hp
  obtain ⟨m, t, hl, -, hqm⟩ := hi.written _ hw
  dsimp only at hqm
  have hpt : pktTag p = pktTag q := pktTag_tagField htag hp (by rw [hqm]; exact packetT_length m t)
  have hu := ha.used _ hw
  dsimp only at hu
  obtain ⟨d, hd⟩ := Option.ne_none_iff_exists'.1 hu
  have hlk : lookup true s.rpc p = .found d (pktTag p) p :=
    lookup_found (by rw [hpt, hqm, pktTag_packet]; exact hl) (by rw [hpt]; exact hd)
  have hdone : ∃ x, s.phase d = .done x := by
    rcases quiet_calls hi hr ⟨h1, h2, h3, h4, h5, h6⟩ d with h | h
    · exact absurd (ha.idle d h) (ha.rpc _ d hd)
    · exact h
  obtain ⟨x, hx⟩ := hdone
  refine ⟨_, hjunk, rfl, by rw [hlk]; simp, fun s'' he'' e hne y hy => ?_⟩
  obtain ⟨-, -, -, h⟩ := hang_exec (any_exec any_init hjunk) (by exact hlk) (by exact hx) he''
  exact hne y (h e y hy)

/-- such a state: one call has been made and answered -/
example : ∃ s c q, Exec true Serving init s ∧ (∀ l s', settling l → ¬ Step true l s s') ∧ (c, q) ∈ s.written := by
  obtain ⟨s, b, he, hb, -, hs⟩ := exec_call (.clunk { OFID := 7 })
  obtain ⟨m, t, -, hw, -⟩ := (C28_right_reply s he).1 0 b hb
  exact ⟨s, 0, _, he, hs, hw⟩

/-- **C31**, the part that holds: whatever the server sends, the client panics only if the server has
closed the connection or has sent a packet whose tag is 0, or 65535, or the tag of no request so far. -/
theorem C31_panic_partial (s s' : State) (l : Label) (he : Exec true anyone init s) (halive : Alive s)
    (hs : Step true l s s') (hp : s'.recv = .panicked) :
    s.reader = .stopped ∨ ∃ r, s.recv = .got r ∧
      ((pktTag r.bytes).toNat = 0 ∨ (pktTag r.bytes).toNat = 65535 ∨
        ∀ x ∈ s.written, tagField x.2 ≠ (pktTag r.bytes).toNat) := by
  have ha := any_exec any_init he
  cases hs with
  | call | getTag | enqueue | takeReq | takeTag | putTag | store | write | reply | junk | close | read | readEOF =>
    exact absurd hp halive
  | handOver | deliver | retag => simp at hp
  | handOverNil _ h => exact .inl h
  | lookup _ r hr =>
    right
    refine ⟨r, hr, ?_⟩
    by_cases h0 : (pktTag r.bytes).toNat = 0
    · exact .inl h0
    · by_cases h1 : (pktTag r.bytes).toNat = 65535
      · exact .inr (.inl h1)
      · refine .inr (.inr fun x hx hxe => ?_)
        have hlt := (pktTag r.bytes).toNat_lt
        have hu := ha.used x hx
        obtain ⟨m, t, -, -, hq⟩ := ha.written x hx
        have : pktTag x.2 = pktTag r.bytes := by
          apply UInt16.toNat_inj.1
          rw [← hxe, hq, pktTag_eq (packetT_length m t)]
        rw [this] at hu
        obtain ⟨d, hd⟩ := Option.ne_none_iff_exists'.1 hu
        have := lookup_found (b := r.bytes) (by unfold Legal; omega) hd
        dsimp only at hp
        rw [this] at hp
        cases hp

/-! ### C32 -/

/-- **C32** is false: once the server has closed the connection the client always ends in a panic, whatever
the order of events; no execution goes on for ever and every state before the panic has a next step. -/
theorem C32_counterexample (s : State) (he : Exec true Abiding init s) (hc : s.closed = true) :
    (¬ ∃ f : Nat → State, f 0 = s ∧ ∀ n, ∃ l, settling l ∧ Step true l (f n) (f (n + 1))) ∧
    (∀ s', Exec true settling s s' → s'.recv ≠ .panicked → ∃ l s'', settling l ∧ Step true l s' s'') := by
  have hs := closing_exec (fun _ h => h) inv_init closing_init he
  refine ⟨?_, ?_⟩
  · rintro ⟨f, h0, hf⟩
    have : ∀ n, work (f n) + n ≤ work (f 0) := by
      intro n
      induction n with
      | zero => simp
      | succ n ih =>
        obtain ⟨l, hl, hst⟩ := hf n
        have := work_step hl hst
        omega
    have := this (work (f 0) + 1)
    omega
  · intro s' he' hr
    have hclosed : s'.closed = true := by
      clear hr
      induction he' with
      | refl => exact hc
      | step a b l _ hl _ hst ih => cases hst <;> first | exact ih | rfl
    obtain ⟨hi, hcl⟩ := closing_exec (fun l hl => serving_abiding l (settling_serving l hl)) hs.1 hs.2 he'
    apply Classical.byContradiction
    intro hno
    have hst : Stuck s' := fun l s'' hl h => hno ⟨l, s'', hl, h⟩
    rcases stuck_recv hi hst with h | h
    · cases hd : s'.reader with
      | stopped => exact hst .client _ trivial (Step.handOverNil s' hd h)
      | off => exact hcl.on hd
      | idle =>
        have := (stuck_reader hst h (by simp [Dead, hd])).2.2
        rw [hclosed] at this; cases this
      | holding r =>
        have := (stuck_reader hst h (by simp [Dead, hd])).2.2
        rw [hclosed] at this; cases this
    · exact hr h

/-- **C32**, the part that holds: the replies that the server sent before it closed the connection are
delivered before the client panics. -/
theorem C32_delivered_partial (s : State) (he : Exec true Abiding init s) (hp : s.recv = .panicked)
    (c : Nat) (q p : Bytes) (hr : (c, q, p) ∈ s.replied) : s.phase c = .done p := by
  obtain ⟨hi, hcl⟩ := closing_exec (fun _ h => h) inv_init closing_init he
  have hst := hcl.panicked hp
  have hf := (hcl.stopped hst).2
  have ho := hi.once c
  have hm : 0 < (s.replied.map Prod.fst).count c := List.count_pos_iff.2 (List.mem_map.2 ⟨_, hr, rfl⟩)
  simp only [hf, hst, hp, Reader.fl, Recv.fl, List.map_nil, List.append_nil, List.count_nil, Nat.zero_add] at ho
  cases hph : s.phase c with
  | done b =>
    obtain ⟨q', hq'⟩ := hi.done c b hph
    rw [hph, Phase.d] at ho
    have hnd : ∀ (l : List (Nat × Bytes × Bytes)), (l.map Prod.fst).count c = 1 → (c, q, p) ∈ l → (c, q', b) ∈ l →
        (c, q, p) = (c, q', b) := by
      intro l
      induction l with
      | nil => intro h; simp at h
      | cons x l ih =>
        intro h h1 h2
        simp only [List.map_cons, List.count_cons] at h
        have hno : ∀ a b, (c, a, b) ∈ l → 0 < (l.map Prod.fst).count c :=
          fun a b hm => List.count_pos_iff.2 (List.mem_map.2 ⟨_, hm, rfl⟩)
        rcases List.mem_cons.1 h1 with h1 | h1 <;> rcases List.mem_cons.1 h2 with h2 | h2
        · rw [h1, h2]
        · rw [← h1] at h
          have := hno _ _ h2
          simp at h; omega
        · rw [← h2] at h
          have := hno _ _ h1
          simp at h; omega
        · have := hno _ _ h1
          exact ih (by generalize (if (x.1 == c) = true then 1 else 0) = k at h; omega) h1 h2
    have := hnd _ ho hr hq'
    simp only [Prod.mk.injEq, true_and] at this
    rw [this.2]
  | idle =>
    have h0 : (s.phase c).d = 0 := by rw [hph]; rfl
    omega
  | sending =>
    have h0 : (s.phase c).d = 0 := by rw [hph]; rfl
    omega
  | waiting =>
    have h0 : (s.phase c).d = 0 := by rw [hph]; rfl
    omega

/-- a closed connection with a call that will not be answered -/
example : ∃ s, Exec true Abiding init s ∧ s.closed = true ∧ s.phase 0 = .sending := by
  have e1 := Exec.step (L := Abiding) init init _ .call (Exec.refl init) trivial (by simp [Alive, init])
    (Step.call (trace := true) init 0 (.clunk {}) rfl)
  exact ⟨_, Exec.step init _ _ .close e1 trivial (by simp [Alive, init]) (Step.close _), rfl, by simp [upd]⟩

/-! ### C33 -/

structure NoTrace (s : State) : Prop where
  recv : s.recv = .idle ∨ (∃ r, s.recv = .got r) ∨ s.recv = .panicked
  phase : ∀ c b, s.phase c ≠ .done b

theorem lookup_false (rpc : Nat → Option Nat) (b : Bytes) : lookup false rpc b = .panicked := by
  unfold lookup
  dsimp only
  split
  · rfl
  · split
    · rfl
    · rfl

theorem noTrace_step {s s' : State} {l : Label} (h : NoTrace s) (hs : Step false l s s') : NoTrace s' := by
  have keep (f : Phase) (d : Nat) (hf : ∀ y, f ≠ .done y) : ∀ c b, upd s.phase d f c ≠ .done b := by
    intro c b
    by_cases hc : c = d
    · subst hc; rw [upd_same]; exact hf b
    · rw [upd_other _ _ hc]; exact h.phase c b
  cases hs with
  | call _ d m hp => exact ⟨h.recv, keep .sending d (by simp)⟩
  | enqueue _ y z d h1 h2 => exact ⟨h.recv, keep .waiting d (by simp)⟩
  | getTag | takeReq | takeTag | putTag | store | write | reply | junk | close | read | readEOF =>
    exact ⟨h.recv, h.phase⟩
  | handOver _ r => exact ⟨.inr (.inl ⟨r, rfl⟩), h.phase⟩
  | handOverNil => exact ⟨.inr (.inr rfl), h.phase⟩
  | lookup _ r => exact ⟨.inr (.inr (lookup_false ..)), h.phase⟩
  | deliver _ c t b h1 => rcases h.recv with h | ⟨r, h⟩ | h <;> (rw [h1] at h; cases h)
  | retag _ t h1 => rcases h.recv with h | ⟨r, h⟩ | h <;> (rw [h1] at h; cases h)

/-- **C33** is false: a client without a tracer never answers a call, in no execution (it panics in the
lookup of the first reply), while with a tracer every call can be answered. -/
theorem C33_counterexample :
    (∀ s, Exec false anyone init s → ∀ c b, s.phase c ≠ .done b) ∧
    (∀ s s', Step false .client s s' → ∀ r, s.recv = .got r → s'.recv = s.recv ∨ s'.recv = .panicked) ∧
    (∀ m, ∃ s b, Exec true Serving init s ∧ s.phase 0 = .done b ∧ s.msg 0 = some m) := by
  refine ⟨?_, ?_, ?_⟩
  · intro s he
    have : NoTrace s := by
      induction he with
      | refl => exact ⟨.inl rfl, by simp [init]⟩
      | step a b l _ _ _ hst ih => exact noTrace_step ih hst
    exact this.phase
  · intro s s' hst r hr
    cases hst <;> first | exact .inl rfl | exact .inr (lookup_false ..) | skip
    all_goals (rename_i h' h''; first | (rw [hr] at h'; cases h') | (rw [hr] at h''; cases h''))
  · intro m
    obtain ⟨s, b, h1, h2, h3, -⟩ := exec_call m
    exact ⟨s, b, h1, h2, h3⟩

/-- **C33**, the part that holds: as long as no reply has to be looked up the tracer makes no difference. -/
theorem C33_same_until_reply_partial (s s' : State) (l : Label) (h : ∀ r, s.recv ≠ .got r) :
    Step false l s s' ↔ Step true l s s' := by
  constructor
  · intro hs
    cases hs with
    | call _ c m hp => exact .call s c m hp
    | getTag _ t ts h1 => exact .getTag s t ts h1
    | enqueue _ a b c h1 h2 => exact .enqueue s a b c h1 h2
    | takeReq _ c cs h1 h2 => exact .takeReq s c cs h1 h2
    | takeTag _ c t ts h1 h2 => exact .takeTag s c t ts h1 h2
    | putTag _ c t h1 => exact .putTag s c t h1
    | store _ c t h1 => exact .store s c t h1
    | write _ c t h1 => exact .write s c t h1
    | reply _ x y c q p h1 h2 h3 h4 => exact .reply s x y c q p h1 h2 h3 h4
    | junk _ p h1 h2 => exact .junk s p h1 h2
    | close => exact .close s
    | read _ r rs h1 h2 => exact .read s r rs h1 h2
    | readEOF _ h1 h2 h3 => exact .readEOF s h1 h2 h3
    | handOver _ r h1 h2 => exact .handOver s r h1 h2
    | handOverNil _ h1 h2 => exact .handOverNil s h1 h2
    | lookup _ r h1 => exact absurd h1 (h r)
    | deliver _ c t b h1 h2 => exact .deliver s c t b h1 h2
    | retag _ t h1 h2 => exact .retag s t h1 h2
  · intro hs
    cases hs with
    | call _ c m hp => exact .call s c m hp
    | getTag _ t ts h1 => exact .getTag s t ts h1
    | enqueue _ a b c h1 h2 => exact .enqueue s a b c h1 h2
    | takeReq _ c cs h1 h2 => exact .takeReq s c cs h1 h2
    | takeTag _ c t ts h1 h2 => exact .takeTag s c t ts h1 h2
    | putTag _ c t h1 => exact .putTag s c t h1
    | store _ c t h1 => exact .store s c t h1
    | write _ c t h1 => exact .write s c t h1
    | reply _ x y c q p h1 h2 h3 h4 => exact .reply s x y c q p h1 h2 h3 h4
    | junk _ p h1 h2 => exact .junk s p h1 h2
    | close => exact .close s
    | read _ r rs h1 h2 => exact .read s r rs h1 h2
    | readEOF _ h1 h2 h3 => exact .readEOF s h1 h2 h3
    | handOver _ r h1 h2 => exact .handOver s r h1 h2
    | handOverNil _ h1 h2 => exact .handOverNil s h1 h2
    | lookup _ r h1 => exact absurd h1 (h r)
    | deliver _ c t b h1 h2 => exact .deliver s c t b h1 h2
    | retag _ t h1 h2 => exact .retag s t h1 h2

example : ∀ r, init.recv ≠ .got r := by simp [init]

/-! ### C34 -/

theorem getFIDs_get (n : Nat) (f : UInt64) (i : Nat) (hi : i < n) :
    (getFIDs n f)[i]? = some (UInt32.ofNat (f.toNat + i + 1)) := by
  induction n generalizing f i with
  | zero => omega
  | succ n ih =>
    cases i with
    | zero =>
      simp only [getFIDs, getFID, List.getElem?_cons_zero, Option.some.injEq]
      apply UInt32.toNat_inj.1
      simp
    | succ i =>
      simp only [getFIDs, getFID, List.getElem?_cons_succ]
      rw [ih (f + 1) i (by omega)]
      congr 1
      apply UInt32.toNat_inj.1
      simp
      omega

/-- **C34** Fresh fids: of any number of calls of `GetFID` on a new client, two give the same fid exactly if
the number of calls from one to the other is a multiple of 2^32. -/
theorem C34_fids_fresh (n i j : Nat) (hij : i < j) (hj : j < n) :
    ∃ a b, (getFIDs n 1)[i]? = some a ∧ (getFIDs n 1)[j]? = some b ∧ (a = b ↔ 2 ^ 32 ∣ (j - i)) := by
  refine ⟨_, _, getFIDs_get n 1 i (by omega), getFIDs_get n 1 j hj, ?_⟩
  rw [← UInt32.toNat_inj]
  simp only [UInt32.toNat_ofNat']
  have h1 : (1 : UInt64).toNat = 1 := rfl
  rw [h1]
  omega

/-! ### C35 -/

theorem packetR_drop (r : RMsg) (t : Tag) : (r.packet t).drop 5 = r.body t := by
  simp [RMsg.packet, Spec.packet, List.drop_append, ← List.append_assoc]

theorem packetR_type (r : RMsg) (t : Tag) : (r.packet t).getD 4 0 = r.ty := by
  simp [RMsg.packet, Spec.packet, le, RMsg.ty, u8_ofNat_mod]

theorem packetR_length (r : RMsg) (t : Tag) : 7 ≤ (r.packet t).length := by
  simp [RMsg.packet, Spec.packet, RMsg.body]; omega

theorem callRes_error {P : Type} (dec : Buffer → Unm P) (zero : P) (spare : Bytes) (e : GoString) (t : Tag)
    (he : e.length < 2 ^ 16) :
    callRes dec zero spare ((RMsg.error ⟨e⟩).packet t) = .ret zero (some (.remote e)) := by
  have hl := packetR_length (.error ⟨e⟩) t
  have hf := (lawsR (.error ⟨e⟩)).fwd he [] spare t
  unfold callRes
  rw [if_neg (by omega), packetR_type, if_pos (by rfl), packetR_drop]
  simp only [decR] at hf
  cases hu : unmarshalRerror ⟨[], (RMsg.error ⟨e⟩).body t, spare⟩ with
  | panic => rw [hu] at hf; cases hf
  | done r t' e' b' =>
    rw [hu] at hf
    simp only [Unm.map, Unm.done.injEq, RMsg.error.injEq] at hf
    obtain ⟨rfl, rfl, rfl, rfl⟩ := hf
    rfl

theorem callRes_ok {P : Type} (dec : Buffer → Unm P) (zero : P) (spare : Bytes) (r : RMsg) (t : Tag) (f : P → RMsg)
    (hr : r.Fits) (hd : ∀ b, decR r b = (dec b).map f) (hne : r.type ≠ 107) :
    (callRes dec zero spare (r.packet t)).map f = .ret r none := by
  have hl := packetR_length r t
  have hf := (lawsR r).fwd hr [] spare t
  rw [hd] at hf
  unfold callRes
  have hty : r.ty ≠ MT.Rerror := by
    intro h
    apply hne
    have := congrArg UInt8.toNat h
    have hlt : r.type < 256 := by cases r <;> simp [RMsg.type]
    simpa [RMsg.ty, MT.Rerror, Nat.mod_eq_of_lt hlt] using this
  rw [if_neg (by omega), packetR_type, if_neg hty, packetR_drop]
  cases hu : dec ⟨[], r.body t, spare⟩ with
  | panic => rw [hu] at hf; cases hf
  | done p t' e' b' =>
    rw [hu] at hf
    simp only [Unm.map, Unm.done.injEq] at hf
    simp [CallRes.map, hf.1, hf.2.2.1]

/-- **C35** A call returns exactly the values of the reply, for all 12 calls and all replies of the right
kind that fit the wire format; and for an error reply the error with exactly its text. -/
theorem C35_call_results (m : TMsg) (spare : Bytes) (t : Tag) :
    (∀ r : RMsg, r.type = m.type + 1 → r.Fits → callT m spare (r.packet t) = .ret r none) ∧
    (∀ e : GoString, e.length < 2 ^ 16 →
      callT m spare ((RMsg.error ⟨e⟩).packet t) = .ret (zeroR m) (some (.remote e))) := by
  constructor
  · intro r hty hr
    cases m <;> cases r <;> simp only [TMsg.type, RMsg.type] at hty <;> first | omega | skip
    · exact callRes_ok unmarshalRversion {} spare _ t .version hr (fun _ => rfl) (by simp [RMsg.type])
    · exact callRes_ok unmarshalRattach {} spare _ t .attach hr (fun _ => rfl) (by simp [RMsg.type])
    · exact callRes_ok unmarshalRflush {} spare _ t .flush hr (fun _ => rfl) (by simp [RMsg.type])
    · exact callRes_ok unmarshalRwalk {} spare _ t .walk hr (fun _ => rfl) (by simp [RMsg.type])
    · exact callRes_ok unmarshalRopen {} spare _ t .open_ hr (fun _ => rfl) (by simp [RMsg.type])
    · exact callRes_ok unmarshalRcreate {} spare _ t .create hr (fun _ => rfl) (by simp [RMsg.type])
    · exact callRes_ok unmarshalRstat {} spare _ t .stat hr (fun _ => rfl) (by simp [RMsg.type])
    · exact callRes_ok unmarshalRwstat {} spare _ t .wstat hr (fun _ => rfl) (by simp [RMsg.type])
    · exact callRes_ok unmarshalRclunk {} spare _ t .clunk hr (fun _ => rfl) (by simp [RMsg.type])
    · exact callRes_ok unmarshalRremove {} spare _ t .remove hr (fun _ => rfl) (by simp [RMsg.type])
    · exact callRes_ok unmarshalRread {} spare _ t .read hr (fun _ => rfl) (by simp [RMsg.type])
    · exact callRes_ok unmarshalRwrite {} spare _ t .write hr (fun _ => rfl) (by simp [RMsg.type])
  · intro e he
    cases m <;> simp only [callT, zeroR]
    · exact congrArg _ (callRes_error unmarshalRversion {} spare e t he)
    · exact congrArg _ (callRes_error unmarshalRattach {} spare e t he)
    · exact congrArg _ (callRes_error unmarshalRflush {} spare e t he)
    · exact congrArg _ (callRes_error unmarshalRwalk {} spare e t he)
    · exact congrArg _ (callRes_error unmarshalRopen {} spare e t he)
    · exact congrArg _ (callRes_error unmarshalRcreate {} spare e t he)
    · exact congrArg _ (callRes_error unmarshalRstat {} spare e t he)
    · exact congrArg _ (callRes_error unmarshalRwstat {} spare e t he)
    · exact congrArg _ (callRes_error unmarshalRclunk {} spare e t he)
    · exact congrArg _ (callRes_error unmarshalRremove {} spare e t he)
    · exact congrArg _ (callRes_error unmarshalRread {} spare e t he)
    · exact congrArg _ (callRes_error unmarshalRwrite {} spare e t he)

example : callT (.read { OFID := 1, Len := 3 }) [] ((RMsg.read { Data := [1, 2, 3] }).packet 5) =
      .ret (.read { Data := [1, 2, 3] }) none ∧
    callT (.read { OFID := 1, Len := 3 }) [] ((RMsg.error ⟨lit "no"⟩).packet 5) = .ret (.read {}) (some (.remote (lit "no"))) :=
  ⟨(C35_call_results _ [] 5).1 _ rfl (by simp [RMsg.Fits]), (C35_call_results _ [] 5).2 _ (by decide)⟩

end Ninep.Client
