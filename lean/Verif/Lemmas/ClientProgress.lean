import Verif.Lemmas.Client

set_option linter.unusedSimpArgs false
set_option linter.unusedVariables false

/-
The client makes progress: a measure that every step of the client and every reply decreases, and what is
true when no such step is possible.
-/

namespace Ninep.Client
open Spec

def Sender.work : Sender → Nat
  | .idle => 0 | .haveReq _ => 10 | .haveTag _ _ => 9 | .tagged _ _ => 8 | .stored _ _ => 7
def Reader.work : Reader → Nat
  | .idle => 1 | .holding _ => 5 | .stopped => 0 | .off => 0
def Recv.work : Recv → Nat
  | .idle => 1 | .got _ => 4 | .found _ _ _ => 3 | .retag _ => 2 | .panicked => 0

/-- the steps that are left to do at most -/
def work (s : State) : Nat :=
  12 * s.sending.length + 11 * s.fromClient.length + s.sender.work + 6 * s.wire.length + 5 * s.fromNet.length +
  s.reader.work + s.recv.work

def Internal : Label → Prop
  | .client => True
  | .reply => True
  | _ => False

theorem work_step {tr : Bool} {l : Label} {s s' : State} (hl : Internal l) (h : Step tr l s s') :
    work s' < work s := by
  cases h with
  | call | getTag | junk | close => exact hl.elim
  | enqueue _ a b c h1 h2 => simp [work, h1]; omega
  | takeReq _ c cs h1 h2 => simp [work, h1, h2, Sender.work]; omega
  | takeTag _ c t ts h1 h2 => simp [work, h1, Sender.work]
  | putTag _ c t h1 => simp [work, h1, Sender.work]
  | store _ c t h1 => simp [work, h1, Sender.work]
  | write _ c t h1 => simp [work, h1, Sender.work]; omega
  | reply _ x y c q p h1 h2 h3 h4 => simp [work, h1]; omega
  | read _ r rs h1 h2 => simp [work, h1, h2, Reader.work]; omega
  | readEOF _ h1 h2 h3 => simp [work, h1, Reader.work]
  | handOver _ r h1 h2 => simp [work, h1, h2, Reader.work, Recv.work]
  | handOverNil _ h1 h2 => simp [work, h2, Recv.work]
  | lookup _ r h1 =>
    have : (Client.lookup tr s.rpc r.bytes).work ≤ 3 := by
      unfold Client.lookup
      dsimp only
      split
      · decide
      · split
        · decide
        · split
          · decide
          · split
            · decide
            · simp [Recv.work]
    have h2 : s.recv.work = 4 := by rw [h1]; rfl
    simp only [work]; omega
  | deliver _ c t b h1 h2 => simp [work, h1, Recv.work]
  | retag _ t h1 h2 => simp [work, h1, Recv.work]

/-- all 65534 tags are somewhere -/
theorem allTags_perm {s : State} (h : Inv s) : (allTags s).Perm init.tags := by
  rw [List.perm_iff_count]
  intro t
  rw [h.tags, init_count]

theorem init_length : init.tags.length = 65534 := by simp [init, NOTAG]

theorem allTags_length {s : State} (h : Inv s) : (allTags s).length = 65534 := by
  rw [(allTags_perm h).length_eq, init_length]

/-- returning a tag never blocks -/
theorem retag_room {s : State} (h : Inv s) {t : Tag} (ht : s.recv = .retag t) : s.tags.length < NumTags := by
  have := allTags_length h
  simp only [allTags, ht, Recv.tags, List.length_append, List.length_singleton, NumTags] at this ⊢
  omega

theorem waiting_of_count {s : State} (h : Inv s) {c : Nat} (hc : some c ∈ allCalls s) : s.phase c = .waiting := by
  have h1 := h.calls c
  have h2 := List.count_pos_iff.2 hc
  cases hp : s.phase c <;> simp [hp, Phase.w] at h1 ⊢ <;> omega

theorem found_waiting {s : State} (h : Inv s) {c : Nat} {t : Tag} {b : Bytes} (hr : s.recv = .found c t b) :
    s.phase c = .waiting :=
  waiting_of_count h (by simp [allCalls, flights, hr, Recv.fl])

/-- no goroutine of the client can go on and there is nothing for the peer to answer -/
def Stuck (s : State) : Prop := ∀ l s', Internal l → ¬ Step true l s s'

theorem stuck_recv {s : State} (hi : Inv s) (hs : Stuck s) : s.recv = .idle ∨ s.recv = .panicked := by
  cases hr : s.recv with
  | idle => exact .inl rfl
  | panicked => exact .inr rfl
  | got r => exact absurd (Step.lookup s r hr) (hs .client _ trivial)
  | found c t b => exact absurd (Step.deliver s c t b hr (found_waiting hi hr)) (hs .client _ trivial)
  | retag t => exact absurd (Step.retag s t hr (retag_room hi hr)) (hs .client _ trivial)

theorem stuck_reader {s : State} (hs : Stuck s) (hr : s.recv = .idle) (hc : ¬ Dead s) :
    s.reader = .idle ∧ s.fromNet = [] ∧ s.closed = false := by
  cases hd : s.reader with
  | stopped => exact absurd (.inl hd) hc
  | off => exact absurd (.inr hd) hc
  | holding r => exact absurd (Step.handOver s r hd hr) (hs .client _ trivial)
  | idle =>
    cases hf : s.fromNet with
    | cons r rs => exact absurd (Step.read s r rs hd hf) (hs .client _ trivial)
    | nil =>
      cases hcl : s.closed with
      | false => exact ⟨rfl, rfl, rfl⟩
      | true => exact absurd (Step.readEOF s hd hf hcl) (hs .client _ trivial)

/-- a reply to any request is possible -/
theorem reply_possible (q : Bytes) (h : 7 ≤ q.length) : ∃ p : Bytes, p.length = pktLen p ∧ tagField p = tagField q := by
  match q, h with
  | a :: b :: c :: d :: e :: x :: y :: r, _ =>
    exact ⟨[7, 0, 0, 0, 109, x, y], by simp [pktLen, leVal], by simp [tagField]⟩

theorem stuck_wire {s : State} (hi : Inv s) (hs : Stuck s) (hc : s.closed = false) : s.wire = [] := by
  cases hw : s.wire with
  | nil => rfl
  | cons x xs =>
    obtain ⟨c, q⟩ := x
    obtain ⟨m, t, -, -, hq⟩ := hi.wire (c, q) (by rw [hw]; simp)
    dsimp only at hq
    obtain ⟨p, h1, h2⟩ := reply_possible q (by rw [hq]; exact packetT_length m t)
    exact absurd (Step.reply s [] xs c q p hw h1 h2 hc) (hs .reply _ trivial)

theorem stuck_all {s : State} (hi : Inv s) (hs : Stuck s) (hr : s.recv = .idle) (hd : ¬ Dead s)
    (ht : s.taken.length < 65534) :
    s.sending = [] ∧ s.fromClient = [] ∧ s.sender = .idle ∧ s.wire = [] ∧ s.fromNet = [] ∧ s.reader = .idle := by
  obtain ⟨h1, h2, h3⟩ := stuck_reader hs hr hd
  have h4 := stuck_wire hi hs h3
  have h5 : s.sender = .idle := by
    cases hse : s.sender with
    | idle => rfl
    | haveTag c t => exact absurd (Step.putTag s c t hse) (hs .client _ trivial)
    | tagged c t => exact absurd (Step.store s c t hse) (hs .client _ trivial)
    | stored c t => exact absurd (Step.write s c t hse) (hs .client _ trivial)
    | haveReq c =>
      cases htg : s.tags with
      | cons t ts => exact absurd (Step.takeTag s c t ts hse htg) (hs .client _ trivial)
      | nil =>
        have := allTags_length hi
        simp [allTags, flights, htg, hse, h1, h2, h4, hr, Sender.tags, Sender.fl, Reader.fl, Recv.fl, Recv.tags] at this
        omega
  have h6 : s.fromClient = [] := by
    cases hf : s.fromClient with
    | nil => rfl
    | cons c cs => exact absurd (Step.takeReq s c cs h5 hf) (hs .client _ trivial)
  have h7 : s.sending = [] := by
    cases hse : s.sending with
    | nil => rfl
    | cons c cs =>
      exact absurd (Step.enqueue s [] cs c hse (by rw [h6]; simp [NumTags])) (hs .client _ trivial)
  exact ⟨h7, h6, h5, h4, h2, h1⟩

/-- when nothing is going on no call is open -/
theorem quiet_calls {s : State} (hi : Inv s) (hr : s.recv = .idle)
    (h : s.sending = [] ∧ s.fromClient = [] ∧ s.sender = .idle ∧ s.wire = [] ∧ s.fromNet = [] ∧ s.reader = .idle)
    (c : Nat) : s.phase c = .idle ∨ ∃ b, s.phase c = .done b := by
  obtain ⟨h1, h2, h3, h4, h5, h6⟩ := h
  have hc := hi.calls c
  have hsd := hi.sending c
  simp [allCalls, flights, h2, h3, h4, h5, h6, hr, Sender.calls, Sender.fl, Reader.fl, Recv.fl] at hc
  cases hp : s.phase c with
  | idle => exact .inl rfl
  | done b => exact .inr ⟨b, rfl⟩
  | waiting => rw [hp] at hc; cases hc
  | sending => rw [hp, h1] at hsd; cases hsd

/-! ### the connection stays open as long as the peer does not close it -/

/-- a peer that answers requests, each at most once, and does not close the connection -/
def Serving : Label → Prop
  | .junk => False
  | .close => False
  | _ => True

theorem serving_abiding : ∀ l, Serving l → Abiding l := by intro l; cases l <;> simp [Serving, Abiding]

theorem lookup_alive {s : State} (hi : Inv s) {r : Reply} (hr : s.recv = .got r) :
    ∃ c, Client.lookup true s.rpc r.bytes = .found c (pktTag r.bytes) r.bytes := by
  obtain ⟨c, e1, e2⟩ := hi.link r.fl (by simp [flights, hr, Recv.fl])
  have hlt : Legal (pktTag r.bytes) := inv_tag_legal hi (by simp [allTags, flights, hr, Recv.fl, Reply.fl])
  exact ⟨c, lookup_found hlt e2⟩

structure Open (s : State) : Prop where
  closed : s.closed = false
  reader : ¬ Dead s
  recv : s.recv ≠ .panicked

theorem open_step {s s' : State} {l : Label} (hl : Serving l) (hi : Inv s) (ho : Open s) (h : Step true l s s') :
    Open s' := by
  cases h with
  | junk | close => exact hl.elim
  | call | getTag | enqueue | takeReq | takeTag | putTag | store | write | reply =>
    exact ⟨ho.closed, ho.reader, ho.recv⟩
  | read => exact ⟨ho.closed, by simp [Dead], ho.recv⟩
  | readEOF _ _ _ h => rw [ho.closed] at h; cases h
  | handOver => exact ⟨ho.closed, by simp [Dead], by simp⟩
  | handOverNil _ h => exact absurd (.inl h) ho.reader
  | lookup _ r h1 =>
    obtain ⟨c, hc⟩ := lookup_alive hi h1
    exact ⟨ho.closed, ho.reader, by simp [hc]⟩
  | deliver => exact ⟨ho.closed, ho.reader, by simp⟩
  | retag => exact ⟨ho.closed, ho.reader, by simp⟩

theorem serving_exec {s s' : State} {L : Label → Prop} (hL : ∀ l, L l → Serving l) (hi : Inv s) (ho : Open s)
    (he : Exec true L s s') : Inv s' ∧ Open s' := by
  induction he with
  | refl => exact ⟨hi, ho⟩
  | step s' s'' l _ hl _ hst ih =>
    exact ⟨inv_step (serving_abiding l (hL l hl)) ih.1 hst, open_step (hL l hl) ih.1 ih.2 hst⟩

theorem open_init : Open init := ⟨rfl, by simp [Dead, init], by simp [init]⟩

/-- after a panic the connection had been closed -/
structure Closing (s : State) : Prop where
  stopped : s.reader = .stopped → s.closed = true ∧ s.fromNet = []
  panicked : s.recv = .panicked → s.reader = .stopped
  on : s.reader ≠ .off

theorem closing_step {s s' : State} {l : Label} (hl : Abiding l) (hi : Inv s) (hc : Closing s) (h : Step true l s s') :
    Closing s' := by
  cases h with
  | junk => exact hl.elim
  | call | getTag | enqueue | takeReq | takeTag | putTag | store | write =>
    exact ⟨hc.stopped, hc.panicked, hc.on⟩
  | reply _ x y c q p h1 h2 h3 h4 =>
    exact ⟨fun h => (by rw [(hc.stopped h).1] at h4; cases h4), hc.panicked, hc.on⟩
  | close => exact ⟨fun h => ⟨rfl, (hc.stopped h).2⟩, hc.panicked, hc.on⟩
  | read _ r rs h1 h2 => exact ⟨fun h => (by cases h), fun h => (by have := hc.panicked h; rw [h1] at this; cases this), by simp⟩
  | readEOF _ h1 h2 h3 => exact ⟨fun _ => ⟨h3, h2⟩, fun _ => rfl, by simp⟩
  | handOver => exact ⟨fun h => (by cases h), fun h => (by cases h), by simp⟩
  | handOverNil _ h => exact ⟨fun _ => hc.stopped h, fun _ => h, hc.on⟩
  | lookup _ r h1 =>
    obtain ⟨c, hcc⟩ := lookup_alive hi h1
    exact ⟨hc.stopped, fun h => (by simp [hcc] at h), hc.on⟩
  | deliver => exact ⟨hc.stopped, fun h => (by cases h), hc.on⟩
  | retag => exact ⟨hc.stopped, fun h => (by cases h), hc.on⟩

theorem closing_exec {s s' : State} {L : Label → Prop} (hL : ∀ l, L l → Abiding l) (hi : Inv s) (hc : Closing s)
    (he : Exec true L s s') : Inv s' ∧ Closing s' := by
  induction he with
  | refl => exact ⟨hi, hc⟩
  | step s' s'' l _ hl _ hst ih =>
    exact ⟨inv_step (hL l hl) ih.1 hst, closing_step (hL l hl) ih.1 ih.2 hst⟩

theorem closing_init : Closing init :=
  ⟨fun h => by simp [init] at h, fun h => by simp [init] at h, by simp [init]⟩

/-! ### any peer -/

/-- What holds whatever the peer sends. -/
structure Any (s : State) : Prop where
  tags : ∀ t, t ∈ s.tags ++ (s.sender.tags ++ (s.sender.fl.map Prod.snd ++ s.recv.tags)) → Legal t
  found : ∀ c t b, s.recv = .found c t b → Legal t
  calls : ∀ c, some c ∈ s.sending.map some ++ (s.fromClient.map some ++ (s.sender.calls ++ s.sender.fl.map Prod.fst)) →
    s.msg c ≠ none
  buf : ∀ c m, s.msg c = some m → ∃ t, s.buf c = m.packet t
  tagged : ∀ c t, s.sender = .tagged c t ∨ s.sender = .stored c t → ∃ m, s.msg c = some m ∧ s.buf c = m.packet t
  written : ∀ x ∈ s.written, ∃ m t, Legal t ∧ s.msg x.1 = some m ∧ x.2 = m.packet t
  idle : ∀ c, s.phase c = .idle → s.msg c = none
  stored : ∀ c t, s.sender = .stored c t → s.rpc (t.toNat - 1) ≠ none
  used : ∀ x ∈ s.written, s.rpc ((pktTag x.2).toNat - 1) ≠ none
  rpc : ∀ k c, s.rpc k = some c → s.msg c ≠ none
  kept : ∀ c, s.phase c ≠ .idle → s.msg c ≠ none
  sending : ∀ c, s.sending.count c = (s.phase c).s

theorem any_init : Any init where
  tags t h := by
    have h : t ∈ init.tags := by simpa [init, Sender.tags, Sender.fl, Recv.tags] using h
    have := List.count_pos_iff.2 h
    rw [init_count] at this
    by_cases hl : Legal t
    · exact hl
    · rw [if_neg hl] at this; omega
  found c t b h := by simp [init] at h
  calls c h := by simp [init, Sender.calls, Sender.fl] at h
  buf c m h := by simp [init] at h
  tagged c t h := by simp [init] at h
  written x hx := by simp [init] at hx
  idle c h := rfl
  stored c t h := by simp [init] at h
  used x hx := by simp [init] at hx
  rpc k c h := by simp [init] at h
  kept c h := absurd rfl h
  sending c := by simp [init, Phase.s]

theorem lookup_legal {tr : Bool} {rpc : Nat → Option Nat} {b b' : Bytes} {c : Nat} {t : Tag}
    (h : Client.lookup tr rpc b = .found c t b') : Legal t ∧ t = pktTag b ∧ b' = b ∧ rpc (t.toNat - 1) = some c := by
  unfold Client.lookup at h
  dsimp only at h
  by_cases h1 : pktTag b < 1
  · simp [h1] at h
  · rw [if_neg h1] at h
    by_cases h2 : (pktTag b).toNat - 1 ≥ NumTags
    · simp [h2] at h
    · rw [if_neg h2] at h
      cases tr with
      | false => simp at h
      | true =>
        rw [if_neg (by simp)] at h
        cases hr : rpc ((pktTag b).toNat - 1) with
        | none => simp [hr] at h
        | some d =>
          simp only [hr, Recv.found.injEq] at h
          obtain ⟨rfl, rfl, rfl⟩ := h
          refine ⟨?_, rfl, rfl, hr⟩
          rw [UInt16.lt_iff_toNat_lt] at h1
          simp [NumTags] at h1 h2
          unfold Legal
          omega

theorem upd_ne_none {f : Nat → Option Nat} {k i : Nat} {v : Nat} (h : f i ≠ none) : upd f k (some v) i ≠ none := by
  unfold upd
  split
  · simp
  · exact h

theorem any_step {tr : Bool} {s s' : State} {l : Label} (ha : Any s) (h : Step tr l s s') : Any s' := by
  cases h with
  | call _ c m hp =>
    have hn := ha.idle c hp
    exact {
      tags := ha.tags, found := ha.found, stored := ha.stored, used := ha.used
      calls := fun d hd => by
        by_cases hdc : d = c
        · subst hdc; simp [upd_same]
        · simp only [upd_other _ _ hdc]
          refine ha.calls d ?_
          simpa [hdc] using hd
      buf := fun d m' hm => by
        by_cases hdc : d = c
        · subst hdc
          simp only [upd_same, Option.some.injEq] at hm
          subst hm
          exact ⟨0, (upd_same ..).trans (C04_wire_layout.1 ..)⟩
        · simp only [upd_other _ _ hdc] at hm ⊢; exact ha.buf d m' hm
      tagged := fun d t h => by
        obtain ⟨m', h1, h2⟩ := ha.tagged d t h
        have : d ≠ c := by rintro rfl; rw [hn] at h1; cases h1
        simp only [upd_other _ _ this]
        exact ⟨m', h1, h2⟩
      written := fun x hx => by
        obtain ⟨m', t, h1, h2, h3⟩ := ha.written x hx
        have : x.1 ≠ c := by rintro rfl; rw [hn] at h2; cases h2
        exact ⟨m', t, h1, (upd_other _ _ this).trans h2, h3⟩
      idle := fun d h => by
        have : d ≠ c := by rintro rfl; simp [upd] at h
        simp only [upd_other _ _ this] at h ⊢
        exact ha.idle d h
      rpc := fun k d hk => by
        have h1 := ha.rpc k d hk
        have : d ≠ c := by rintro rfl; exact h1 hn
        simpa [upd_other _ _ this] using h1
      kept := fun d hd => by
        by_cases hdc : d = c
        · subst hdc; simp [upd_same]
        · simp only [upd_other _ _ hdc] at hd ⊢
          exact ha.kept d hd
      sending := fun d => by
        by_cases h : d = c
        · subst h
          have := ha.sending d
          rw [hp] at this
          simpa [upd, Phase.s] using this
        · simpa [upd, h, Ne.symm h] using ha.sending d }
  | getTag _ t ts h1 =>
    exact {
      tags := fun u hu => ha.tags u (by rw [h1]; simp at hu ⊢; exact .inr hu)
      found := ha.found, calls := ha.calls, buf := ha.buf, tagged := ha.tagged, written := ha.written, idle := ha.idle
      stored := ha.stored, used := ha.used, rpc := ha.rpc, kept := ha.kept, sending := ha.sending }
  | enqueue _ a b c h1 h2 =>
    have hm := ha.calls c (by simp [h1])
    exact {
      tags := ha.tags, found := ha.found, stored := ha.stored, used := ha.used
      calls := fun d hd => by
        by_cases hdc : d = c
        · subst hdc; exact hm
        · refine ha.calls d ?_
          simp [h1, hdc] at hd ⊢
          rcases hd with h | h | h
          · exact .inl h
          · exact .inr (.inl h)
          · exact .inr (.inr h)
      buf := ha.buf, tagged := ha.tagged, written := ha.written
      idle := fun d h => by
        have : d ≠ c := by rintro rfl; simp [upd] at h
        simp only [upd_other _ _ this] at h ⊢
        exact ha.idle d h
      rpc := ha.rpc
      kept := fun d hd => by
        by_cases hdc : d = c
        · subst hdc; exact hm
        · simp only [upd_other _ _ hdc] at hd
          exact ha.kept d hd
      sending := fun d => by
        have := ha.sending d
        by_cases h : d = c
        · subst h
          have hse := ha.sending d
          have hph : s.phase d = .sending := by
            rw [h1] at hse
            simp only [List.count_append, List.count_cons_self] at hse
            cases hp : s.phase d <;> simp [hp, Phase.s] at hse <;> first | rfl | omega
          rw [hph, h1] at this
          simp only [List.count_append, List.count_cons_self, upd_same, Phase.s] at this ⊢
          omega
        · rw [h1] at this
          have h' : (c == d) = false := by simp [Ne.symm h]
          simpa [List.count_append, List.count_cons, h', upd_other _ _ h] using this }
  | takeReq _ c cs h1 h2 =>
    exact {
      tags := fun t ht => ha.tags t (by simpa [h1, Sender.tags, Sender.fl] using ht)
      found := ha.found
      calls := fun d hd => ha.calls d (by
        simp [h1, h2, Sender.calls, Sender.fl] at hd ⊢
        rcases hd with h | h | h
        · exact .inl h
        · exact .inr (.inr h)
        · exact .inr (.inl h))
      buf := ha.buf
      tagged := fun d t h => by simp at h
      written := ha.written, idle := ha.idle
      stored := fun d t h => by simp at h
      used := ha.used, rpc := ha.rpc, kept := ha.kept, sending := ha.sending }
  | takeTag _ c t ts h1 h2 =>
    exact {
      tags := fun u hu => ha.tags u (by
        simp [h1, h2, Sender.tags, Sender.fl] at hu ⊢
        rcases hu with h | h | h
        · exact .inr (.inl h)
        · exact .inl h
        · exact .inr (.inr h))
      found := ha.found
      calls := fun d hd => ha.calls d (by simpa [h1, Sender.calls, Sender.fl] using hd)
      buf := ha.buf
      tagged := fun d t h => by simp at h
      written := ha.written, idle := ha.idle
      stored := fun d t h => by simp at h
      used := ha.used, rpc := ha.rpc, kept := ha.kept, sending := ha.sending }
  | putTag _ c t h1 =>
    have hm := ha.calls c (by simp [h1, Sender.calls])
    obtain ⟨m, hm⟩ := Option.ne_none_iff_exists'.1 hm
    obtain ⟨t', hb⟩ := ha.buf c m hm
    exact {
      tags := fun u hu => ha.tags u (by simpa [h1, Sender.tags, Sender.fl] using hu)
      found := ha.found
      calls := fun d hd => ha.calls d (by simpa [h1, Sender.calls, Sender.fl] using hd)
      buf := fun d m' hd => by
        by_cases h : d = c
        · subst h
          have : m' = m := by
            have hd : s.msg d = some m' := hd
            rw [hm] at hd; cases hd; rfl
          subst this
          exact ⟨t, (upd_same ..).trans (by rw [hb, setTag_packet])⟩
        · simp only [upd_other _ _ h]; exact ha.buf d m' hd
      tagged := fun d u h => by
        simp at h
        obtain ⟨rfl, rfl⟩ := h
        exact ⟨m, hm, (upd_same ..).trans (by rw [hb, setTag_packet])⟩
      written := ha.written, idle := ha.idle
      stored := fun d t h => by simp at h
      used := ha.used, rpc := ha.rpc, kept := ha.kept, sending := ha.sending }
  | store _ c t h1 =>
    exact {
      tags := fun u hu => ha.tags u (by simpa [h1, Sender.tags, Sender.fl] using hu)
      found := ha.found
      calls := fun d hd => ha.calls d (by simpa [h1, Sender.calls, Sender.fl] using hd)
      buf := ha.buf
      tagged := fun d u h => by
        simp at h
        obtain ⟨rfl, rfl⟩ := h
        exact ha.tagged _ _ (.inl h1)
      written := ha.written, idle := ha.idle
      stored := fun d u h => by
        simp at h
        obtain ⟨rfl, rfl⟩ := h
        simp [upd_same]
      used := fun x hx => upd_ne_none (ha.used x hx)
      rpc := fun k d hk => by
        simp only [upd] at hk
        split at hk
        · cases hk; exact ha.calls c (by simp [h1, Sender.calls])
        · exact ha.rpc k d hk
      kept := ha.kept, sending := ha.sending }
  | write _ c t h1 =>
    obtain ⟨m, hm, hb⟩ := ha.tagged c t (.inr h1)
    have hlt : Legal t := ha.tags t (by simp [h1, Sender.fl])
    exact {
      tags := fun u hu => ha.tags u (by
        simp [h1, Sender.tags, Sender.fl] at hu ⊢
        rcases hu with h | h
        · exact .inl h
        · exact .inr (.inr h))
      found := ha.found
      calls := fun d hd => ha.calls d (by
        simp [h1, Sender.calls, Sender.fl] at hd ⊢
        rcases hd with h | h
        · exact .inl h
        · exact .inr (.inl h))
      buf := ha.buf
      tagged := fun d t h => by simp at h
      written := fun x hx => by
        simp only [List.mem_append, List.mem_singleton] at hx
        rcases hx with hx | rfl
        · exact ha.written x hx
        · exact ⟨m, t, hlt, hm, hb⟩
      idle := ha.idle
      stored := fun d t h => by simp at h
      used := fun x hx => by
        simp only [List.mem_append, List.mem_singleton] at hx
        rcases hx with hx | rfl
        · exact ha.used x hx
        · dsimp only
          rw [hb, pktTag_packet]
          exact ha.stored c t h1
      rpc := ha.rpc, kept := ha.kept, sending := ha.sending }
  | reply | junk | close | read | readEOF =>
    exact { tags := ha.tags, found := ha.found, calls := ha.calls, buf := ha.buf, tagged := ha.tagged
            written := ha.written, idle := ha.idle, stored := ha.stored, used := ha.used, rpc := ha.rpc, kept := ha.kept, sending := ha.sending }
  | handOver _ r h1 h2 =>
    exact { tags := fun u hu => ha.tags u (by simpa [h2, Recv.tags] using hu)
            found := fun c t b h => by cases h
            calls := ha.calls, buf := ha.buf, tagged := ha.tagged
            written := ha.written, idle := ha.idle, stored := ha.stored, used := ha.used, rpc := ha.rpc, kept := ha.kept, sending := ha.sending }
  | handOverNil _ h1 h2 =>
    exact { tags := fun u hu => ha.tags u (by simpa [h2, Recv.tags] using hu)
            found := fun c t b h => by cases h
            calls := ha.calls, buf := ha.buf, tagged := ha.tagged
            written := ha.written, idle := ha.idle, stored := ha.stored, used := ha.used, rpc := ha.rpc, kept := ha.kept, sending := ha.sending }
  | lookup _ r h1 =>
    have hl0 : (Client.lookup tr s.rpc r.bytes).tags = [] := by
      unfold Client.lookup
      dsimp only
      split
      · rfl
      · split
        · rfl
        · split
          · rfl
          · split <;> rfl
    exact { tags := fun u hu => ha.tags u (by
              have hu : u ∈ s.tags ++ (s.sender.tags ++ (s.sender.fl.map Prod.snd ++ (Client.lookup tr s.rpc r.bytes).tags)) := hu
              rw [hl0] at hu
              rw [h1]
              exact hu)
            found := fun c t b h => (lookup_legal h).1
            calls := ha.calls, buf := ha.buf, tagged := ha.tagged
            written := ha.written, idle := ha.idle, stored := ha.stored, used := ha.used, rpc := ha.rpc, kept := ha.kept, sending := ha.sending }
  | deliver _ c t b h1 h2 =>
    exact { tags := fun u hu => by
              simp [Recv.tags] at hu
              rcases hu with h | h | h | h
              · exact ha.tags u (by simp [h])
              · exact ha.tags u (by simp [h])
              · exact ha.tags u (by simp; exact .inr (.inr (.inl h)))
              · subst h; exact ha.found c _ b h1
            found := fun c t b h => by cases h
            calls := ha.calls, buf := ha.buf, tagged := ha.tagged, written := ha.written
            idle := fun d h => by
              have : d ≠ c := by rintro rfl; simp [upd] at h
              simp only [upd_other _ _ this] at h ⊢
              exact ha.idle d h
            stored := ha.stored, used := ha.used, rpc := ha.rpc
            kept := fun d hd => by
              by_cases hdc : d = c
              · subst hdc; exact ha.kept d (by rw [h2]; simp)
              · simp only [upd_other _ _ hdc] at hd
                exact ha.kept d hd
            sending := fun d => by
              have := ha.sending d
              by_cases h : d = c
              · subst h; rw [h2] at this; simpa [upd_same, Phase.s] using this
              · simpa [upd_other _ _ h] using this }
  | retag _ t h1 h2 =>
    exact { tags := fun u hu => ha.tags u (by
              simp [h1, Recv.tags] at hu ⊢
              rcases hu with h | h | h | h
              · exact .inl h
              · exact .inr (.inr (.inr h))
              · exact .inr (.inl h)
              · exact .inr (.inr (.inl h)))
            found := fun c t b h => by cases h
            calls := ha.calls, buf := ha.buf, tagged := ha.tagged
            written := ha.written, idle := ha.idle, stored := ha.stored, used := ha.used, rpc := ha.rpc, kept := ha.kept, sending := ha.sending }

theorem any_exec {tr : Bool} {L : Label → Prop} {s s' : State} (ha : Any s) (he : Exec tr L s s') : Any s' := by
  induction he with
  | refl => exact ha
  | step s' s'' l _ _ _ hst ih => exact any_step ih hst

end Ninep.Client
