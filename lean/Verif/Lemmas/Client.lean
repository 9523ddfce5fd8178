import Verif.Client.Model
import Verif.Props.Codec
import Verif.Lemmas.Server

set_option linter.unusedSimpArgs false
set_option linter.unusedVariables false

/-
The invariant of the client: every tag is in exactly one place, every waiting call is in exactly one
place, and a tag in use leads to its call.
-/

namespace Ninep.Client
open Spec

/-! ### where the calls and tags are -/

def Phase.w : Phase → Nat
  | .waiting => 1
  | _ => 0

def Phase.s : Phase → Nat
  | .sending => 1
  | _ => 0

def Phase.d : Phase → Nat
  | .done _ => 1
  | _ => 0

/-- calls and tags that the sender holds before the call can be found by its tag, and after that -/
def Sender.calls : Sender → List (Option Nat)
  | .haveReq c => [some c] | .haveTag c _ => [some c] | .tagged c _ => [some c] | _ => []
def Sender.tags : Sender → List Tag
  | .haveTag _ t => [t] | .tagged _ t => [t] | _ => []
def Sender.fl : Sender → List (Option Nat × Tag)
  | .stored c t => [(some c, t)] | _ => []

def Reply.fl (r : Reply) : Option Nat × Tag := (r.owner, pktTag r.bytes)
def Reader.fl : Reader → List (Option Nat × Tag)
  | .holding r => [r.fl] | _ => []
def Recv.fl : Recv → List (Option Nat × Tag)
  | .got r => [r.fl] | .found c t _ => [(some c, t)] | _ => []
def Recv.tags : Recv → List Tag
  | .retag t => [t] | _ => []

def wireFl (x : Nat × Bytes) : Option Nat × Tag := (some x.1, pktTag x.2)

/-- calls that can be found by their tag -/
def flights (s : State) : List (Option Nat × Tag) :=
  s.sender.fl ++ (s.wire.map wireFl ++ (s.fromNet.map Reply.fl ++ (s.reader.fl ++ s.recv.fl)))

def allTags (s : State) : List Tag :=
  s.tags ++ (s.taken ++ (s.sender.tags ++ (s.recv.tags ++ (flights s).map Prod.snd)))

def allCalls (s : State) : List (Option Nat) :=
  s.fromClient.map some ++ (s.sender.calls ++ (flights s).map Prod.fst)

def Legal (t : Tag) : Prop := 1 ≤ t.toNat ∧ t.toNat ≤ 65534
instance (t : Tag) : Decidable (Legal t) := inferInstanceAs (Decidable (_ ∧ _))

/-- the replies that are on their way -/
def Recv.replies : Recv → List Reply
  | .got r => [r] | .found c _ b => [⟨some c, b⟩] | _ => []
def Reader.replies : Reader → List Reply
  | .holding r => [r] | _ => []
def replies (s : State) : List Reply := s.fromNet ++ (s.reader.replies ++ s.recv.replies)

structure Inv (s : State) : Prop where
  tags : ∀ t, (allTags s).count t = if Legal t then 1 else 0
  calls : ∀ c, (allCalls s).count (some c) = (s.phase c).w
  sending : ∀ c, s.sending.count c = (s.phase c).s
  link : ∀ x ∈ flights s, ∃ c, x.1 = some c ∧ s.rpc (x.2.toNat - 1) = some c
  buf : ∀ c, s.phase c ≠ .idle → ∃ m t, s.msg c = some m ∧ s.buf c = m.packet t
  tagged : ∀ c t, s.sender = .tagged c t ∨ s.sender = .stored c t → ∃ m, s.msg c = some m ∧ s.buf c = m.packet t
  wire : ∀ x ∈ s.wire, ∃ m t, Legal t ∧ s.msg x.1 = some m ∧ x.2 = m.packet t
  written : ∀ x ∈ s.written, ∃ m t, Legal t ∧ s.msg x.1 = some m ∧ x.2 = m.packet t
  answered : ∀ r ∈ replies s, ∃ c q, r.owner = some c ∧ (c, q, r.bytes) ∈ s.replied
  found : ∀ c t b, s.recv = .found c t b → t = pktTag b
  done : ∀ c b, s.phase c = .done b → ∃ q, (c, q, b) ∈ s.replied
  replied : ∀ x ∈ s.replied, (x.1, x.2.1) ∈ s.written ∧ pktTag x.2.2 = pktTag x.2.1 ∧ x.2.2.length = pktLen x.2.2
  sent : ∀ x ∈ s.wire, x ∈ s.written
  once : ∀ c, (s.replied.map Prod.fst).count c =
    ((s.fromNet.map Reply.fl ++ (s.reader.fl ++ s.recv.fl)).map Prod.fst).count (some c) + (s.phase c).d
  wonce : ∀ c, (s.written.map Prod.fst).count c = (s.wire.map Prod.fst).count c + (s.replied.map Prod.fst).count c
  idle : ∀ c, s.phase c = .idle → s.msg c = none

theorem pktTag_packet (m : TMsg) (t : Tag) : pktTag (m.packet t) = t := by
  have : m.packet t = le 4 (4 + 1 + (2 + m.fields.length)) ++ (le 1 m.type ++ (put16 t ++ m.fields)) := by
    simp [TMsg.packet, Spec.packet, TMsg.body, put16_eq]
  rw [this]
  have h := tagOf_le t m.fields
  rw [← put16_eq] at h
  simp only [put16, List.cons_append, List.nil_append] at h
  rw [tagOf_cons] at h
  simpa [pktTag, le, put16] using h

theorem pktTag_eq {p : Bytes} (h : 7 ≤ p.length) : (pktTag p).toNat = tagField p := by
  match p, h with
  | a :: b :: c :: d :: e :: x :: y :: r, _ =>
    have hx := x.toNat_lt
    have hy := y.toNat_lt
    have := tagOf_cons x y r
    simp only [pktTag, tagField, List.getD_cons_succ, List.getD_cons_zero, List.drop_succ_cons, List.drop_zero,
      List.take_succ_cons, List.take_zero]
    rw [← this]
    simp [tagOf, leVal]
    omega

theorem packetT_length (m : TMsg) (t : Tag) : 7 ≤ (m.packet t).length := by
  simp [TMsg.packet, Spec.packet, TMsg.body]; omega

theorem pktTag_tagField {p q : Bytes} (h : tagField p = tagField q) (hp : 7 ≤ p.length) (hq : 7 ≤ q.length) :
    pktTag p = pktTag q := by
  apply UInt16.toNat_inj.1
  rw [pktTag_eq hp, pktTag_eq hq, h]

theorem pktLen_seven {p : Bytes} (h : p.length = pktLen p) : 7 ≤ p.length := by
  rw [h]; unfold pktLen; omega

theorem setTag_packet (m : TMsg) (t t' : Tag) : setTag (m.packet t) t' = m.packet t' := by
  have h := C13_tag_patching {} {} m t t'
  rw [C04_wire_layout.1, C04_wire_layout.1] at h
  exact h

theorem init_count (t : Tag) : init.tags.count t = if Legal t then 1 else 0 := by
  have hn : init.tags.Nodup := by
    unfold init NOTAG
    unfold List.Nodup
    rw [List.pairwise_map]
    refine List.Pairwise.imp_of_mem ?_ (List.nodup_range (n := (0xFFFF : UInt16).toNat - 1))
    intro a b ha hb hab h
    have := congrArg UInt16.toNat h
    simp at ha hb this
    omega
  rw [List.Nodup.count hn]
  have : t ∈ init.tags ↔ Legal t := by
    simp only [init, NOTAG, List.mem_map, List.mem_range, Legal]
    constructor
    · rintro ⟨a, ha, rfl⟩
      simp at ha ⊢; omega
    · intro h
      refine ⟨t.toNat - 1, by simp; omega, ?_⟩
      apply UInt16.toNat_inj.1
      simp; omega
  simp [this]

theorem inv_init : Inv init where
  tags t := by
    have := init_count t
    simpa [allTags, flights, init, Sender.tags, Sender.fl, Recv.tags, Recv.fl, Reader.fl] using this
  calls c := by simp [allCalls, flights, init, Sender.calls, Sender.fl, Recv.fl, Reader.fl, Phase.w]
  sending c := by simp [init, Phase.s]
  link x hx := by simp [flights, init, Sender.fl, Recv.fl, Reader.fl] at hx
  buf c h := absurd rfl h
  tagged c t h := by simp [init] at h
  wire x hx := by simp [init] at hx
  written x hx := by simp [init] at hx
  answered r hr := by simp [replies, init, Reader.replies, Recv.replies] at hr
  found c t b h := by simp [init] at h
  done c b h := by simp [init] at h
  idle c h := rfl
  replied x hx := by simp [init] at hx
  sent x hx := by simp [init] at hx
  once c := by simp [init, Reader.fl, Recv.fl, Phase.d]
  wonce c := by simp [init]

theorem inv_tag_legal {s : State} (h : Inv s) {t : Tag} (ht : t ∈ allTags s) : Legal t := by
  have := h.tags t
  have hp := List.count_pos_iff.2 ht
  by_cases hl : Legal t
  · exact hl
  · rw [if_neg hl] at this; omega

theorem toNat_pred_inj {t t' : Tag} (h : Legal t) (h' : Legal t') (he : t.toNat - 1 = t'.toNat - 1) : t = t' := by
  apply UInt16.toNat_inj.1
  unfold Legal at *
  omega

theorem upd_same {α : Type} (f : Nat → α) (k : Nat) (v : α) : upd f k v k = v := by simp [upd]
theorem upd_other {α : Type} (f : Nat → α) {k i : Nat} (v : α) (h : i ≠ k) : upd f k v i = f i := by simp [upd, h]

theorem lookup_found {rpc : Nat → Option Nat} {b : Bytes} {c : Nat} (hl : Legal (pktTag b))
    (h : rpc ((pktTag b).toNat - 1) = some c) : Client.lookup true rpc b = .found c (pktTag b) b := by
  unfold Client.lookup Legal at *
  have h1 : ¬ pktTag b < 1 := by rw [UInt16.lt_iff_toNat_lt]; simp; omega
  have h2 : ¬ (pktTag b).toNat - 1 ≥ NumTags := by unfold NumTags; omega
  simp only [h1, h2, if_false, h]
  rfl

theorem replies_count {s : State} {r : Reply} {d : Nat} (hr : r ∈ replies s) (e1 : r.owner = some d) :
    0 < ((s.fromNet.map Reply.fl ++ (s.reader.fl ++ s.recv.fl)).map Prod.fst).count (some d) := by
  apply List.count_pos_iff.2
  simp only [replies, List.mem_append] at hr
  simp only [List.map_append, List.mem_append, List.mem_map]
  rcases hr with h | h | h
  · exact .inl ⟨r.fl, ⟨r, h, rfl⟩, e1⟩
  · cases hrd : s.reader <;> simp [hrd, Reader.replies] at h
    subst h
    exact .inr (.inl ⟨r.fl, by simp [Reader.fl], e1⟩)
  · cases hrd : s.recv <;> simp [hrd, Recv.replies] at h
    · subst h
      exact .inr (.inr ⟨r.fl, by simp [Recv.fl], e1⟩)
    · rename_i c t b
      subst h
      exact .inr (.inr ⟨(some c, t), by simp [Recv.fl], e1⟩)

/-- the labels of an execution with a peer that answers requests, each at most once, and may close -/
def Abiding : Label → Prop
  | .junk => False
  | _ => True

theorem inv_step {s s' : State} {l : Label} (hl : Abiding l) (hi : Inv s) (hs : Step true l s s') : Inv s' := by
  cases hs with
  | junk => exact hl.elim
  | call _ c m hp =>
    have hw := hi.calls c
    have hse := hi.sending c
    rw [hp] at hw hse
    exact {
      tags := hi.tags
      calls := fun d => by
        by_cases h : d = c
        · subst h; simpa [upd, Phase.w, allCalls, flights] using hw
        · simpa [upd, h, allCalls, flights] using hi.calls d
      sending := fun d => by
        by_cases h : d = c
        · subst h; simpa [upd, Phase.s] using hse
        · simpa [upd, h, Ne.symm h] using hi.sending d
      link := hi.link
      buf := fun d hd => by
        by_cases h : d = c
        · subst h; exact ⟨m, 0, upd_same .., by simp only [upd_same]; exact C04_wire_layout.1 ..⟩
        · simp only [upd_other _ _ h] at *; exact hi.buf d hd
      tagged := fun d t h => by
        have h : s.sender = .tagged d t ∨ s.sender = .stored d t := h
        obtain ⟨m', h1, h2⟩ := hi.tagged d t h
        have : d ≠ c := by rintro rfl; rw [hi.idle _ hp] at h1; cases h1
        simp only [upd_other _ _ this]
        exact ⟨m', h1, h2⟩
      wire := fun x hx => by
        obtain ⟨m', t, h1, h2, h3⟩ := hi.wire x hx
        have : x.1 ≠ c := by rintro rfl; rw [hi.idle _ hp] at h2; cases h2
        exact ⟨m', t, h1, (upd_other _ _ this).trans h2, h3⟩
      written := fun x hx => by
        obtain ⟨m', t, h1, h2, h3⟩ := hi.written x hx
        have : x.1 ≠ c := by rintro rfl; rw [hi.idle _ hp] at h2; cases h2
        exact ⟨m', t, h1, (upd_other _ _ this).trans h2, h3⟩
      answered := hi.answered
      found := hi.found
      done := fun d b h => by
        have : d ≠ c := by rintro rfl; simp [upd] at h
        simp only [upd_other _ _ this] at h
        exact hi.done d b h
      idle := fun d h => by
        have : d ≠ c := by rintro rfl; simp [upd] at h
        simp only [upd_other _ _ this] at h ⊢
        exact hi.idle d h
      replied := hi.replied, sent := hi.sent
      once := fun d => by
        have := hi.once d
        by_cases h : d = c
        · subst h; rw [hp] at this; simpa [upd_same, Phase.d] using this
        · simpa [upd_other _ _ h] using this
      wonce := hi.wonce }
  | getTag _ t ts ht =>
    exact {
      tags := fun u => by
        have := hi.tags u
        simp only [allTags, flights, ht, List.count_append, List.count_cons] at this ⊢
        omega
      calls := hi.calls, sending := hi.sending, link := hi.link, buf := hi.buf, tagged := hi.tagged
      wire := hi.wire, written := hi.written, answered := hi.answered, found := hi.found
      done := hi.done, idle := hi.idle, replied := hi.replied, sent := hi.sent, once := hi.once, wonce := hi.wonce }
  | enqueue _ a b c hs hr =>
    have hse := hi.sending c
    have hph : s.phase c = .sending := by
      rw [hs] at hse
      simp only [List.count_append, List.count_cons_self] at hse
      cases hp : s.phase c <;> simp [hp, Phase.s] at hse <;> first | rfl | omega
    have hw := hi.calls c
    rw [hph] at hw
    exact {
      tags := hi.tags
      calls := fun d => by
        have := hi.calls d
        by_cases h : d = c
        · subst h
          simp only [allCalls, flights, List.map_append, List.map_cons, List.map_nil, List.count_append,
            List.count_cons_self, List.count_nil, upd_same, hph, Phase.w] at this ⊢
          omega
        · have h' : (some c == some d) = false := by simp [Ne.symm h]
          simp only [allCalls, flights, List.map_append, List.map_cons, List.map_nil, List.count_append,
            List.count_cons, h', List.count_nil, upd_other _ _ h] at this ⊢
          simpa using this
      sending := fun d => by
        have := hi.sending d
        by_cases h : d = c
        · subst h
          rw [hph, hs] at this
          simp only [List.count_append, List.count_cons_self, upd_same, Phase.s] at this ⊢
          omega
        · rw [hs] at this
          have h' : (c == d) = false := by simp [Ne.symm h]
          simpa [List.count_append, List.count_cons, h', upd_other _ _ h] using this
      link := hi.link
      buf := fun d hd => by
        refine hi.buf d ?_
        by_cases h : d = c
        · subst h; rw [hph]; simp
        · simpa [upd_other _ _ h] using hd
      tagged := hi.tagged, wire := hi.wire, written := hi.written, answered := hi.answered, found := hi.found
      done := fun d b h => by
        have : d ≠ c := by rintro rfl; simp [upd] at h
        simp only [upd_other _ _ this] at h
        exact hi.done d b h
      idle := fun d h => by
        have : d ≠ c := by rintro rfl; simp [upd] at h
        simp only [upd_other _ _ this] at h ⊢
        exact hi.idle d h
      replied := hi.replied, sent := hi.sent
      once := fun d => by
        have := hi.once d
        by_cases h : d = c
        · subst h; rw [hph] at this; simpa [upd_same, Phase.d] using this
        · simpa [upd_other _ _ h] using this
      wonce := hi.wonce }
  | takeReq _ c cs h1 h2 =>
    exact {
      tags := fun u => by
        have := hi.tags u
        simpa [allTags, flights, h1, Sender.tags, Sender.fl] using this
      calls := fun d => by
        have := hi.calls d
        simp only [allCalls, flights, h1, h2, Sender.calls, Sender.fl, List.map_append, List.map_cons, List.map_nil,
          List.count_append, List.count_cons, List.count_nil] at this ⊢
        omega
      sending := hi.sending
      link := fun x hx => hi.link x (by simpa [flights, h1, Sender.fl] using hx)
      buf := hi.buf
      tagged := fun d t h => by simp at h
      wire := hi.wire, written := hi.written, answered := hi.answered, found := hi.found
      done := hi.done, idle := hi.idle, replied := hi.replied, sent := hi.sent, once := hi.once, wonce := hi.wonce }
  | takeTag _ c t ts h1 h2 =>
    exact {
      tags := fun u => by
        have := hi.tags u
        simp only [allTags, flights, h1, h2, Sender.tags, Sender.fl, List.count_append, List.count_cons,
          List.count_nil] at this ⊢
        omega
      calls := fun d => by simpa [allCalls, flights, h1, Sender.calls, Sender.fl] using hi.calls d
      sending := hi.sending
      link := fun x hx => hi.link x (by simpa [flights, h1, Sender.fl] using hx)
      buf := hi.buf
      tagged := fun d t h => by simp at h
      wire := hi.wire, written := hi.written, answered := hi.answered, found := hi.found
      done := hi.done, idle := hi.idle, replied := hi.replied, sent := hi.sent, once := hi.once, wonce := hi.wonce }
  | putTag _ c t h1 =>
    have hph : s.phase c = .waiting := by
      have hc := hi.calls c
      simp only [allCalls, flights, h1, Sender.calls, List.count_append, List.count_cons_self] at hc
      cases hp : s.phase c <;> simp [hp, Phase.w] at hc <;> first | rfl | omega
    obtain ⟨m, t', hm, hb⟩ := hi.buf c (by rw [hph]; simp)
    exact {
      tags := fun u => by simpa [allTags, flights, h1, Sender.tags, Sender.fl] using hi.tags u
      calls := fun d => by simpa [allCalls, flights, h1, Sender.calls, Sender.fl] using hi.calls d
      sending := hi.sending
      link := fun x hx => hi.link x (by simpa [flights, h1, Sender.fl] using hx)
      buf := fun d hd => by
        by_cases h : d = c
        · subst h; exact ⟨m, t, hm, (upd_same ..).trans (by rw [hb, setTag_packet])⟩
        · simp only [upd_other _ _ h]; exact hi.buf d hd
      tagged := fun d u h => by
        simp at h
        obtain ⟨rfl, rfl⟩ := h
        exact ⟨m, hm, (upd_same ..).trans (by rw [hb, setTag_packet])⟩
      wire := hi.wire, written := hi.written, answered := hi.answered, found := hi.found
      done := hi.done, idle := hi.idle, replied := hi.replied, sent := hi.sent, once := hi.once, wonce := hi.wonce }
  | store _ c t h1 =>
    have hlt : Legal t := inv_tag_legal hi (by simp [allTags, h1, Sender.tags])
    exact {
      tags := fun u => by
        have := hi.tags u
        simp only [allTags, flights, h1, Sender.tags, Sender.fl, List.map_append, List.map_cons, List.map_nil,
          List.count_append, List.count_cons, List.count_nil] at this ⊢
        omega
      calls := fun d => by
        have := hi.calls d
        simp only [allCalls, flights, h1, Sender.calls, Sender.fl, List.map_append, List.map_cons, List.map_nil,
          List.count_append, List.count_cons, List.count_nil] at this ⊢
        omega
      sending := hi.sending
      link := fun x hx => by
        have hx : x = (some c, t) ∨ x ∈ flights s := by
          simpa [flights, h1, Sender.fl] using hx
        rcases hx with rfl | hx
        · exact ⟨c, rfl, upd_same ..⟩
        · obtain ⟨d, e1, e2⟩ := hi.link x hx
          have hlx : Legal x.2 := inv_tag_legal hi (by
            simp only [allTags, List.mem_append, List.mem_map]; exact .inr (.inr (.inr (.inr ⟨x, hx, rfl⟩))))
          have hne : x.2 ≠ t := by
            intro he
            have hc := hi.tags t
            have : 0 < ((flights s).map Prod.snd).count t :=
              List.count_pos_iff.2 (List.mem_map.2 ⟨x, hx, he⟩)
            simp only [allTags, h1, Sender.tags, List.count_append, List.count_cons_self, if_pos hlt] at hc
            omega
          exact ⟨d, e1, (upd_other _ _ fun he => hne (toNat_pred_inj hlx hlt he)).trans e2⟩
      buf := hi.buf
      tagged := fun d u h => by
        simp at h
        obtain ⟨rfl, rfl⟩ := h
        exact hi.tagged _ _ (.inl h1)
      wire := hi.wire, written := hi.written, answered := hi.answered, found := hi.found
      done := hi.done, idle := hi.idle, replied := hi.replied, sent := hi.sent, once := hi.once, wonce := hi.wonce }
  | write _ c t h1 =>
    obtain ⟨m, hm, hb⟩ := hi.tagged c t (.inr h1)
    have hlt : Legal t := inv_tag_legal hi (by simp [allTags, flights, h1, Sender.fl])
    have hpt : pktTag (s.buf c) = t := by rw [hb, pktTag_packet]
    exact {
      tags := fun u => by
        have := hi.tags u
        simp only [allTags, flights, h1, Sender.tags, Sender.fl, wireFl, hpt, List.map_append, List.map_cons, List.map_nil,
          List.count_append, List.count_cons, List.count_nil] at this ⊢
        omega
      calls := fun d => by
        have := hi.calls d
        simp only [allCalls, flights, h1, Sender.calls, Sender.fl, wireFl, List.map_append, List.map_cons, List.map_nil,
          List.count_append, List.count_cons, List.count_nil] at this ⊢
        omega
      sending := hi.sending
      link := fun x hx => hi.link x (by
        simp only [flights, h1, Sender.fl, wireFl, hpt, List.mem_append, List.map_append, List.map_cons, List.map_nil] at hx ⊢
        rcases hx with h | (h | h) | h | h
        · cases h
        · exact .inr (.inl h)
        · exact .inl h
        · exact .inr (.inr (.inl h))
        · exact .inr (.inr (.inr h)))
      buf := hi.buf
      tagged := fun d t h => by simp at h
      wire := fun x hx => by
        simp only [List.mem_append, List.mem_singleton] at hx
        rcases hx with hx | rfl
        · exact hi.wire x hx
        · exact ⟨m, t, hlt, hm, hb⟩
      written := fun x hx => by
        simp only [List.mem_append, List.mem_singleton] at hx
        rcases hx with hx | rfl
        · exact hi.written x hx
        · exact ⟨m, t, hlt, hm, hb⟩
      answered := hi.answered, found := hi.found, done := hi.done, idle := hi.idle, once := hi.once
      replied := fun x hx => ⟨List.mem_append_left _ (hi.replied x hx).1, (hi.replied x hx).2⟩
      sent := fun x hx => by
        simp only [List.mem_append, List.mem_singleton] at hx ⊢
        rcases hx with hx | rfl
        · exact .inl (hi.sent x hx)
        · exact .inr rfl
      wonce := fun d => by
        have := hi.wonce d
        simp only [List.map_append, List.map_cons, List.map_nil, List.count_append] at this ⊢
        omega }
  | reply _ x y c q p h1 h2 h3' h4 =>
    have h3 : pktTag p = pktTag q := by
      obtain ⟨m, t, -, -, hq⟩ := hi.wire (c, q) (by rw [h1]; simp)
      exact pktTag_tagField h3' (pktLen_seven h2) (by dsimp only at hq; rw [hq]; exact packetT_length m t)
    have hph : s.phase c = .waiting := by
      have hc := hi.calls c
      simp only [allCalls, flights, h1, wireFl, List.map_append, List.map_cons, List.count_append, List.count_cons_self] at hc
      cases hp : s.phase c <;> simp [hp, Phase.w] at hc <;> first | rfl | omega
    exact {
      tags := fun u => by
        have := hi.tags u
        simp only [allTags, flights, h1, h3, wireFl, Reply.fl, List.map_append, List.map_cons, List.map_nil,
          List.count_append, List.count_cons, List.count_nil] at this ⊢
        omega
      calls := fun d => by
        have := hi.calls d
        simp only [allCalls, flights, h1, wireFl, Reply.fl, List.map_append, List.map_cons, List.map_nil,
          List.count_append, List.count_cons, List.count_nil] at this ⊢
        omega
      sending := hi.sending
      link := fun z hz => hi.link z (by
        simp only [flights, h1, h3, wireFl, Reply.fl, List.mem_append, List.map_append, List.map_cons, List.map_nil,
          List.mem_cons] at hz ⊢
        rcases hz with h | (h | h) | (h | h | h) | h | h
        · exact .inl h
        · exact .inr (.inl (.inl h))
        · exact .inr (.inl (.inr (.inr h)))
        · exact .inr (.inr (.inl h))
        · exact .inr (.inl (.inr (.inl h)))
        · cases h
        · exact .inr (.inr (.inr (.inl h)))
        · exact .inr (.inr (.inr (.inr h))))
      buf := hi.buf
      tagged := hi.tagged
      wire := fun z hz => hi.wire z (by
        rw [h1]
        simp only [List.mem_append, List.mem_cons] at hz ⊢
        rcases hz with h | h
        · exact .inl h
        · exact .inr (.inr h))
      written := hi.written
      answered := fun r hr => by
        have hr : r = ⟨some c, p⟩ ∨ r ∈ replies s := by
          simp only [replies, List.mem_append, List.mem_singleton] at hr ⊢
          rcases hr with (h | h) | h | h
          · exact .inr (.inl h)
          · exact .inl h
          · exact .inr (.inr (.inl h))
          · exact .inr (.inr (.inr h))
        rcases hr with rfl | hr2
        · exact ⟨c, q, rfl, by simp⟩
        · obtain ⟨d, q', e1, e2⟩ := hi.answered r hr2
          exact ⟨d, q', e1, List.mem_append_left _ e2⟩
      found := hi.found
      done := fun d b h => by
        obtain ⟨q', hq⟩ := hi.done d b h
        exact ⟨q', List.mem_append_left _ hq⟩
      idle := hi.idle
      replied := fun z hz => by
        simp only [List.mem_append, List.mem_singleton] at hz
        rcases hz with hz | rfl
        · exact hi.replied z hz
        · exact ⟨hi.sent _ (by rw [h1]; simp), h3, h2⟩
      sent := fun z hz => hi.sent z (by
        rw [h1]
        simp only [List.mem_append, List.mem_cons] at hz ⊢
        rcases hz with h | h
        · exact .inl h
        · exact .inr (.inr h))
      once := fun d => by
        have := hi.once d
        simp only [Reply.fl, List.map_append, List.map_cons, List.map_nil, List.count_append, List.count_cons,
          List.count_nil, beq_iff_eq, Option.some.injEq] at this ⊢
        omega
      wonce := fun d => by
        have := hi.wonce d
        simp only [h1, List.map_append, List.map_cons, List.map_nil, List.count_append, List.count_cons,
          List.count_nil] at this ⊢
        omega }
  | close =>
    exact { tags := hi.tags, calls := hi.calls, sending := hi.sending, link := hi.link, buf := hi.buf, tagged := hi.tagged
            wire := hi.wire, written := hi.written, answered := hi.answered, found := hi.found
            done := hi.done, idle := hi.idle, replied := hi.replied, sent := hi.sent, once := hi.once, wonce := hi.wonce }
  | read _ r rs h1 h2 =>
    exact {
      tags := fun u => by
        have := hi.tags u
        simp only [allTags, flights, h1, h2, Reader.fl, List.map_append, List.map_cons, List.map_nil,
          List.count_append, List.count_cons, List.count_nil] at this ⊢
        omega
      calls := fun d => by
        have := hi.calls d
        simp only [allCalls, flights, h1, h2, Reader.fl, List.map_append, List.map_cons, List.map_nil,
          List.count_append, List.count_cons, List.count_nil] at this ⊢
        omega
      sending := hi.sending
      link := fun z hz => hi.link z (by
        simp only [flights, h1, h2, Reader.fl, List.mem_append, List.map_cons, List.mem_cons] at hz ⊢
        rcases hz with h | h | h | (h | h) | h
        · exact .inl h
        · exact .inr (.inl h)
        · exact .inr (.inr (.inl (.inr h)))
        · exact .inr (.inr (.inl (.inl h)))
        · cases h
        · exact .inr (.inr (.inr (.inr h))))
      buf := hi.buf, tagged := hi.tagged, wire := hi.wire, written := hi.written
      answered := fun z hz => hi.answered z (by
        simp only [replies, h1, h2, Reader.replies, List.mem_append, List.mem_cons] at hz ⊢
        rcases hz with h | (h | h) | h
        · exact .inl (.inr h)
        · exact .inl (.inl h)
        · cases h
        · exact .inr (.inr h))
      found := hi.found, done := hi.done, idle := hi.idle, replied := hi.replied, sent := hi.sent, wonce := hi.wonce
      once := fun d => by
        have := hi.once d
        simp only [h1, h2, Reader.fl, Recv.fl, Reply.fl, List.map_append, List.map_cons, List.map_nil, List.count_append,
          List.count_cons, List.count_nil] at this ⊢
        omega }
  | readEOF _ h1 h2 h3 =>
    exact {
      tags := fun u => by simpa [allTags, flights, h1, Reader.fl] using hi.tags u
      calls := fun d => by simpa [allCalls, flights, h1, Reader.fl] using hi.calls d
      sending := hi.sending
      link := fun z hz => hi.link z (by simpa [flights, h1, Reader.fl] using hz)
      buf := hi.buf, tagged := hi.tagged, wire := hi.wire, written := hi.written
      answered := fun z hz => hi.answered z (by simpa [replies, h1, Reader.replies] using hz)
      found := hi.found, done := hi.done, idle := hi.idle, replied := hi.replied, sent := hi.sent, wonce := hi.wonce
      once := fun d => by
        have := hi.once d
        simp only [h1, Reader.fl, Recv.fl, Reply.fl, List.map_append, List.map_cons, List.map_nil, List.count_append,
          List.count_cons, List.count_nil] at this ⊢
        omega }
  | handOver _ r h1 h2 =>
    exact {
      tags := fun u => by simpa [allTags, flights, h1, h2, Reader.fl, Recv.fl, Recv.tags] using hi.tags u
      calls := fun d => by simpa [allCalls, flights, h1, h2, Reader.fl, Recv.fl] using hi.calls d
      sending := hi.sending
      link := fun z hz => hi.link z (by simpa [flights, h1, h2, Reader.fl, Recv.fl] using hz)
      buf := hi.buf, tagged := hi.tagged, wire := hi.wire, written := hi.written
      answered := fun z hz => hi.answered z (by simpa [replies, h1, h2, Reader.replies, Recv.replies] using hz)
      found := fun c t b h => by cases h
      done := hi.done, idle := hi.idle, replied := hi.replied, sent := hi.sent, wonce := hi.wonce
      once := fun d => by
        have := hi.once d
        simp only [h1, h2, Reader.fl, Recv.fl, Reply.fl, List.map_append, List.map_cons, List.map_nil, List.count_append,
          List.count_cons, List.count_nil] at this ⊢
        omega }
  | handOverNil _ h1 h2 =>
    exact {
      tags := fun u => by simpa [allTags, flights, h2, Recv.fl, Recv.tags] using hi.tags u
      calls := fun d => by simpa [allCalls, flights, h2, Recv.fl] using hi.calls d
      sending := hi.sending
      link := fun z hz => hi.link z (by simpa [flights, h2, Recv.fl] using hz)
      buf := hi.buf, tagged := hi.tagged, wire := hi.wire, written := hi.written
      answered := fun z hz => hi.answered z (by simpa [replies, h2, Recv.replies] using hz)
      found := fun c t b h => by cases h
      done := hi.done, idle := hi.idle, replied := hi.replied, sent := hi.sent, wonce := hi.wonce
      once := fun d => by
        have := hi.once d
        simp only [h2, Reader.fl, Recv.fl, Reply.fl, List.map_append, List.map_cons, List.map_nil, List.count_append,
          List.count_cons, List.count_nil] at this ⊢
        omega }
  | lookup _ r h1 =>
    obtain ⟨c, e1, e2⟩ := hi.link r.fl (by simp [flights, h1, Recv.fl])
    have hlt : Legal (pktTag r.bytes) := inv_tag_legal hi (by simp [allTags, flights, h1, Recv.fl, Reply.fl])
    have hlk : Client.lookup true s.rpc r.bytes = .found c (pktTag r.bytes) r.bytes := lookup_found hlt e2
    have ho : r = ⟨some c, r.bytes⟩ := by cases r; simp [Reply.fl] at e1; subst e1; rfl
    exact {
      tags := fun u => by
        show List.count u (allTags { s with recv := Client.lookup true s.rpc r.bytes }) = _
        rw [hlk]
        simpa [allTags, flights, h1, Recv.fl, Recv.tags, Reply.fl] using hi.tags u
      calls := fun d => by
        show List.count (some d) (allCalls { s with recv := Client.lookup true s.rpc r.bytes }) = _
        rw [hlk]
        have e1 : r.owner = some c := e1
        simpa [allCalls, flights, h1, Recv.fl, Reply.fl, e1] using hi.calls d
      sending := hi.sending
      link := fun z hz => hi.link z (by
        have e1 : r.owner = some c := e1
        have hz : z ∈ flights { s with recv := Client.lookup true s.rpc r.bytes } := hz
        rw [hlk] at hz
        simpa [flights, h1, Recv.fl, Reply.fl, e1] using hz)
      buf := hi.buf, tagged := hi.tagged, wire := hi.wire, written := hi.written
      answered := fun z hz => hi.answered z (by
        have hz : z ∈ replies { s with recv := Client.lookup true s.rpc r.bytes } := hz
        rw [hlk] at hz
        rw [replies, h1]
        simp only [Recv.replies]
        rw [ho]
        simpa [replies, Recv.replies] using hz)
      found := fun c t b h => by
        have h : Client.lookup true s.rpc r.bytes = .found c t b := h
        rw [hlk] at h
        simp only [Recv.found.injEq] at h
        rw [← h.2.1, ← h.2.2]
      done := hi.done, idle := hi.idle, replied := hi.replied, sent := hi.sent, wonce := hi.wonce
      once := fun d => by
        show _ = ((s.fromNet.map Reply.fl ++ (s.reader.fl ++ (Client.lookup true s.rpc r.bytes).fl)).map Prod.fst).count (some d) + _
        rw [hlk, hi.once d, h1]
        have e1 : r.owner = some c := e1
        simp [Recv.fl, Reply.fl, e1] }
  | deliver _ c t b h1 h2 =>
    have hw := hi.calls c
    rw [h2] at hw
    obtain ⟨d, q, e1, e2⟩ := hi.answered ⟨some c, b⟩ (by simp [replies, h1, Recv.replies])
    simp only [Option.some.injEq] at e1
    subst e1
    exact {
      tags := fun u => by
        have := hi.tags u
        simp only [allTags, flights, h1, Recv.tags, Recv.fl, List.map_append, List.map_cons, List.map_nil,
          List.count_append, List.count_cons, List.count_nil] at this ⊢
        omega
      calls := fun d => by
        have := hi.calls d
        by_cases h : d = c
        · subst h
          simp only [allCalls, flights, h1, h2, Recv.fl, List.map_append, List.map_cons, List.map_nil,
            List.count_append, List.count_cons_self, List.count_nil, upd_same, Phase.w] at this ⊢
          omega
        · have h' : (some c == some d) = false := by simp [Ne.symm h]
          simp only [allCalls, flights, h1, Recv.fl, List.map_append, List.map_cons, List.map_nil,
            List.count_append, List.count_cons, h', List.count_nil, upd_other _ _ h] at this ⊢
          simpa using this
      sending := fun d => by
        have := hi.sending d
        by_cases h : d = c
        · subst h; rw [h2] at this; simpa [upd_same, Phase.s] using this
        · simpa [upd_other _ _ h] using this
      link := fun z hz => hi.link z (by
        simp only [flights, h1, Recv.fl, List.mem_append] at hz ⊢
        rcases hz with h | h | h | h | h
        · exact .inl h
        · exact .inr (.inl h)
        · exact .inr (.inr (.inl h))
        · exact .inr (.inr (.inr (.inl h)))
        · cases h)
      buf := fun d hd => by
        refine hi.buf d ?_
        by_cases h : d = c
        · subst h; rw [h2]; simp
        · simpa [upd_other _ _ h] using hd
      tagged := hi.tagged, wire := hi.wire, written := hi.written
      answered := fun z hz => hi.answered z (by
        simp only [replies, h1, Recv.replies, List.mem_append] at hz ⊢
        rcases hz with h | h | h
        · exact .inl h
        · exact .inr (.inl h)
        · cases h)
      found := fun c t b h => by cases h
      done := fun d b' h => by
        by_cases hd : d = c
        · subst hd
          simp only [upd_same, Phase.done.injEq] at h
          rw [← h]; exact ⟨q, e2⟩
        · simp only [upd_other _ _ hd] at h; exact hi.done d b' h
      idle := fun d h => by
        have : d ≠ c := by rintro rfl; simp [upd] at h
        simp only [upd_other _ _ this] at h ⊢
        exact hi.idle d h
      replied := hi.replied, sent := hi.sent, wonce := hi.wonce
      once := fun d => by
        have := hi.once d
        by_cases h : d = c
        · subst h
          simp only [h1, h2, Recv.fl, List.map_append, List.map_cons, List.map_nil, List.count_append,
            List.count_cons_self, List.count_nil, upd_same, Phase.d] at this ⊢
          omega
        · have h' : (some c == some d) = false := by simp [Ne.symm h]
          simp only [h1, Recv.fl, List.map_append, List.map_cons, List.map_nil,
            List.count_append, List.count_cons, h', List.count_nil, upd_other _ _ h] at this ⊢
          simpa using this }
  | retag _ t h1 h2 =>
    exact {
      tags := fun u => by
        have := hi.tags u
        simp only [allTags, flights, h1, Recv.tags, Recv.fl, List.map_append, List.map_cons, List.map_nil,
          List.count_append, List.count_cons, List.count_nil] at this ⊢
        omega
      calls := fun d => by simpa [allCalls, flights, h1, Recv.fl] using hi.calls d
      sending := hi.sending
      link := fun z hz => hi.link z (by simpa [flights, h1, Recv.fl] using hz)
      buf := hi.buf, tagged := hi.tagged, wire := hi.wire, written := hi.written
      answered := fun z hz => hi.answered z (by simpa [replies, h1, Recv.replies] using hz)
      found := fun c t b h => by cases h
      done := hi.done, idle := hi.idle, replied := hi.replied, sent := hi.sent, wonce := hi.wonce
      once := fun d => by
        have := hi.once d
        simp only [h1, Reader.fl, Recv.fl, Reply.fl, List.map_append, List.map_cons, List.map_nil, List.count_append,
          List.count_cons, List.count_nil] at this ⊢
        omega }

/-- Every state of every execution with an abiding peer satisfies the invariant. -/
theorem inv_exec {s s' : State} {L : Label → Prop} (hL : ∀ l, L l → Abiding l) (hi : Inv s)
    (he : Exec true L s s') : Inv s' := by
  induction he with
  | refl => exact hi
  | step s' s'' l _ hl _ hst ih => exact inv_step (hL l hl) ih hst

end Ninep.Client
