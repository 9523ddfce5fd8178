import Verif.Client.Race
import Verif.Props.Slots

set_option linter.unusedSimpArgs false
set_option linter.unusedVariables false

namespace Ninep.Client
open Spec

/-- Of two accesses to the same location, one of them a write, the earlier one happened before the later one. -/
def RaceFree (log : List Access) (ok : Loc → Prop) : Prop :=
  ∀ (i j : Nat) (a b : Access), i < j → log[i]? = some a → log[j]? = some b → a.loc = b.loc → ok a.loc →
    (a.write = true ∨ b.write = true) → b.past i

/-! ### what is known where -/

/-- the accesses to `l` are all in `P` -/
def Cov (G : Ghost) (P : Past) (l : Loc) : Prop := ∀ (i : Nat) (a : Access), G.log[i]? = some a → a.loc = l → P i
/-- the writes to `l` are all in `P` -/
def CovW (G : Ghost) (P : Past) (l : Loc) : Prop :=
  ∀ (i : Nat) (a : Access), G.log[i]? = some a → a.loc = l → a.write = true → P i

inductive Place where
  | pool | queue | sender | wire | net | reader | recv
  | user (g : Nat)

def Place.gor : Place → Option Gor
  | .sender => some .sender
  | .reader => some .reader
  | .recv => some .receiver
  | .user g => some (.user g)
  | _ => none

def Sender.has : Sender → Option Nat → Option Tag → Prop
  | .haveReq c, oc, ot => oc = some c ∧ ot = none
  | .haveTag c t, oc, ot => oc = some c ∧ ot = some t
  | .tagged c t, oc, ot => oc = some c ∧ ot = some t
  | .stored c t, oc, ot => oc = some c ∧ ot = some t
  | _, _, _ => False

def Recv.has : Recv → Option Nat → Option Tag → Prop
  | .got r, oc, ot => oc = r.owner ∧ ot = some (pktTag r.bytes)
  | .found c t _, oc, ot => oc = some c ∧ ot = some t
  | .retag t, oc, ot => oc = none ∧ ot = some t
  | _, _, _ => False

/-- a call, a tag or both are at a place, and what is known there -/
inductive HeldAt (s : State) (G : Ghost) : Place → Past → Option Nat → Option Tag → Prop
  | pool (t : Tag) : t ∈ s.tags → HeldAt s G .pool (G.tagPast t) none (some t)
  | queue (c : Nat) : c ∈ s.fromClient → HeldAt s G .queue (G.reqPast c) (some c) none
  | sender (oc : Option Nat) (ot : Option Tag) : s.sender.has oc ot → HeldAt s G .sender (G.know .sender) oc ot
  | wire (x : Nat × Bytes) : x ∈ s.wire → HeldAt s G .wire (G.netPast x.1) (some x.1) (some (pktTag x.2))
  | net (r : Reply) : r ∈ s.fromNet → HeldAt s G .net (G.answer r) r.owner (some (pktTag r.bytes))
  | reader (r : Reply) : s.reader = .holding r → HeldAt s G .reader (G.know .reader) r.owner (some (pktTag r.bytes))
  | recv (oc : Option Nat) (ot : Option Tag) : s.recv.has oc ot → HeldAt s G .recv (G.know .receiver) oc ot
  | user (c g : Nat) : c ∈ s.sending → G.maker c = some g → HeldAt s G (.user g) (G.know (.user g)) (some c) none

/-- the locations that belong to a call and a tag -/
def Touches (oc : Option Nat) (ot : Option Tag) (l : Loc) : Prop :=
  (∃ t, ot = some t ∧ l = .slot (t.toNat - 1)) ∨ (∃ c, oc = some c ∧ (l = .call c ∨ l = .req c))

structure HInv (I : Nat → Prop) (N : Nat) (s : State) (G : Ghost) : Prop where
  held : ∀ p P oc ot, HeldAt s G p P oc ot → ∀ l, Touches oc ot l → Cov G P l
  idle : ∀ c, I c → ∀ l, l = .call c ∨ l = .req c → Cov G (fun _ => False) l
  fresh : ∀ n, N ≤ n → Cov G (fun _ => False) (.rep n)
  reader : ∀ r, s.reader = .holding r → CovW G (G.know .reader) (.rep (G.nread - 1)) ∧ 1 ≤ G.nread
  recv : ((∃ r, s.recv = .got r) ∨ ∃ c t b, s.recv = .found c t b) →
    CovW G (G.know .receiver) (.rep G.recvId) ∧ G.recvId < G.nread
  done : ∀ c g b, s.phase c = .done b → G.maker c = some g →
    CovW G (G.know (.user g)) (.rep (G.got c)) ∧ G.got c < G.nread
  free : RaceFree G.log fun l => l ≠ .fid ∧ l ≠ .dead
  maker : ∀ c, s.phase c ≠ .idle → ∃ g, G.maker c = some g

def HOk (s : State) (G : Ghost) : Prop := HInv (fun c => s.phase c = .idle) G.nread s G

theorem Cov.mono {G : Ghost} {P Q : Past} {l : Loc} (h : Cov G P l) (hs : ∀ i, P i → Q i) : Cov G Q l :=
  fun i a h1 h2 => hs i (h i a h1 h2)
theorem CovW.mono {G : Ghost} {P Q : Past} {l : Loc} (h : CovW G P l) (hs : ∀ i, P i → Q i) : CovW G Q l :=
  fun i a h1 h2 h3 => hs i (h i a h1 h2 h3)
theorem Cov.w {G : Ghost} {P : Past} {l : Loc} (h : Cov G P l) : CovW G P l := fun i a h1 h2 _ => h i a h1 h2

/-! ### an access -/

theorem log_access {G : Ghost} {g : Gor} {l : Loc} {w : Bool} {i : Nat} {a : Access}
    (h : (G.access g l w).log[i]? = some a) :
    G.log[i]? = some a ∨ (i = G.log.length ∧ a = ⟨g, l, w, G.know g⟩) := by
  simp only [Ghost.access] at h
  rcases Nat.lt_trichotomy i G.log.length with hi | hi | hi
  · rw [List.getElem?_append_left hi] at h; exact .inl h
  · rw [hi, List.getElem?_append_right (Nat.le_refl _)] at h
    simp at h
    exact .inr ⟨hi, h.symm⟩
  · rw [List.getElem?_eq_none (by simp; omega)] at h; simp at h

theorem cov_access_other {G : Ghost} {g : Gor} {l l' : Loc} {w : Bool} {P : Past} (h : Cov G P l) (hne : l' ≠ l) :
    Cov (G.access g l' w) P l := by
  intro i a h1 h2
  rcases log_access h1 with h1 | ⟨-, rfl⟩
  · exact h i a h1 h2
  · exact absurd h2 hne

theorem cov_access_self {G : Ghost} {g : Gor} {l l' : Loc} {w : Bool} {P P' : Past} (h : Cov G P l)
    (hs : ∀ i, P i → P' i) (hn : P' G.log.length) : Cov (G.access g l' w) P' l := by
  intro i a h1 h2
  rcases log_access h1 with h1 | ⟨rfl, -⟩
  · exact hs i (h i a h1 h2)
  · exact hn

theorem covW_access_read {G : Ghost} {g : Gor} {l l' : Loc} {P : Past} (h : CovW G P l) :
    CovW (G.access g l' false) P l := by
  intro i a h1 h2 h3
  rcases log_access h1 with h1 | ⟨-, rfl⟩
  · exact h i a h1 h2 h3
  · simp at h3

theorem covW_access_other {G : Ghost} {g : Gor} {l l' : Loc} {w : Bool} {P : Past} (h : CovW G P l) (hne : l' ≠ l) :
    CovW (G.access g l' w) P l := by
  intro i a h1 h2 h3
  rcases log_access h1 with h1 | ⟨-, rfl⟩
  · exact h i a h1 h2 h3
  · exact absurd h2 hne

theorem know_access {G : Ghost} {g g' : Gor} {l : Loc} {w : Bool} {i : Nat} (h : G.know g' i) :
    (G.access g l w).know g' i := by
  simp only [Ghost.access]
  split
  · subst g'; exact .inl h
  · exact h

theorem know_access_new (G : Ghost) (g : Gor) (l : Loc) (w : Bool) : (G.access g l w).know g G.log.length := by
  simp [Ghost.access]

theorem race_access {G : Ghost} {g : Gor} {l : Loc} {w : Bool} {ok : Loc → Prop} (h : RaceFree G.log ok)
    (hw : ok l → w = true → Cov G (G.know g) l) (hr : ok l → CovW G (G.know g) l) :
    RaceFree (G.access g l w).log ok := by
  intro i j a b hij h1 h2 hl hok hwr
  rcases log_access h2 with h2' | ⟨rfl, rfl⟩
  · rcases log_access h1 with h1' | ⟨rfl, -⟩
    · exact h i j a b hij h1' h2' hl hok hwr
    · have : j < G.log.length := by
        rcases Nat.lt_or_ge j G.log.length with h' | h'
        · exact h'
        · rw [List.getElem?_eq_none h'] at h2'; simp at h2'
      omega
  · rcases log_access h1 with h1' | ⟨rfl, -⟩
    · simp only at hl ⊢
      cases w with
      | true => exact hw (hl ▸ hok) rfl i a h1' hl
      | false => exact hr (hl ▸ hok) i a h1' hl (by simpa using hwr)
    · omega

theorem held_access {s : State} {G : Ghost} {g : Gor} {l : Loc} {w : Bool} {p : Place} {P' : Past} {oc : Option Nat}
    {ot : Option Tag} (h : HeldAt s (G.access g l w) p P' oc ot) :
    ∃ P, HeldAt s G p P oc ot ∧ (∀ i, P i → P' i) ∧ (p.gor = some g → P' G.log.length) := by
  cases h with
  | pool t ht => exact ⟨_, .pool t ht, fun _ h => h, fun h => by simp [Place.gor] at h⟩
  | queue c hc => exact ⟨_, .queue c hc, fun _ h => h, fun h => by simp [Place.gor] at h⟩
  | sender oc ot hc =>
    exact ⟨_, .sender _ _ hc, fun _ => know_access, fun h => by
      simp only [Place.gor, Option.some.injEq] at h; subst h; exact know_access_new ..⟩
  | wire x hx => exact ⟨_, .wire x hx, fun _ h => h, fun h => by simp [Place.gor] at h⟩
  | net r hr => exact ⟨_, .net r hr, fun _ h => h, fun h => by simp [Place.gor] at h⟩
  | reader r hr =>
    exact ⟨_, .reader _ hr, fun _ => know_access, fun h => by
      simp only [Place.gor, Option.some.injEq] at h; subst h; exact know_access_new ..⟩
  | recv oc ot hc =>
    exact ⟨_, .recv _ _ hc, fun _ => know_access, fun h => by
      simp only [Place.gor, Option.some.injEq] at h; subst h; exact know_access_new ..⟩
  | user c g' hc hm =>
    exact ⟨_, .user _ _ hc hm, fun _ => know_access, fun h => by
      simp only [Place.gor, Option.some.injEq] at h; subst h; exact know_access_new ..⟩

theorem HInv.access {I : Nat → Prop} {N : Nat} {s : State} {G : Ghost} (h : HInv I N s G) (g : Gor) (l : Loc) (w : Bool)
    (hw : (l ≠ .fid ∧ l ≠ .dead) → w = true → Cov G (G.know g) l)
    (hr : (l ≠ .fid ∧ l ≠ .dead) → CovW G (G.know g) l)
    (ho : ∀ p P oc ot, HeldAt s G p P oc ot → Touches oc ot l → p.gor = some g)
    (hi : ∀ c, I c → l ≠ .call c ∧ l ≠ .req c)
    (hp : ∀ n, l = .rep n → n < N ∧ (w = true → G.nread ≤ n)) : HInv I N s (G.access g l w) := by
  have hrep : ∀ n g', CovW G (G.know g') (.rep n) → n < G.nread →
      CovW (G.access g l w) ((G.access g l w).know g') (.rep n) := by
    intro n g' hc hn
    refine CovW.mono (P := G.know g') ?_ fun _ => know_access
    cases w with
    | false => exact covW_access_read hc
    | true => exact covW_access_other hc fun e => by have := (hp n e).2 rfl; omega
  refine ⟨?_, ?_, ?_, ?_, ?_, ?_, race_access h.free hw hr, h.maker⟩
  · intro p P' oc ot hh l' ht
    obtain ⟨P, hP, hsub, hnew⟩ := held_access hh
    by_cases e : l = l'
    · subst e
      exact cov_access_self (h.held p P oc ot hP l ht) hsub (hnew (ho p P oc ot hP ht))
    · exact (cov_access_other (h.held p P oc ot hP l' ht) e).mono hsub
  · intro c hc l' hl'
    refine cov_access_other (h.idle c hc l' hl') ?_
    rcases hl' with rfl | rfl
    · exact (hi c hc).1
    · exact (hi c hc).2
  · intro n hn
    exact cov_access_other (h.fresh n hn) fun e => by have := (hp n e).1; omega
  · intro r hr'
    obtain ⟨h1, h2⟩ := h.reader r hr'
    exact ⟨hrep _ _ h1 (by show G.nread - 1 < G.nread; omega), h2⟩
  · intro hr'
    obtain ⟨h1, h2⟩ := h.recv hr'
    exact ⟨hrep _ _ h1 h2, h2⟩
  · intro c g' b hd hm
    obtain ⟨h1, h2⟩ := h.done c g' b hd hm
    exact ⟨hrep _ _ h1 h2, h2⟩

/-! ### a message -/

theorem know_learn {G : Ghost} {g g' : Gor} {Q : Past} {i : Nat} (h : G.know g' i) : (G.learn g Q).know g' i := by
  simp only [Ghost.learn]
  split
  · subst g'; exact .inl h
  · exact h

theorem know_learnt {G : Ghost} {g : Gor} {Q : Past} {i : Nat} (h : Q i) : (G.learn g Q).know g i := by
  simp [Ghost.learn, h]

theorem held_learn {s : State} {G : Ghost} {g : Gor} {Q : Past} {p : Place} {P' : Past} {oc : Option Nat}
    {ot : Option Tag} (h : HeldAt s (G.learn g Q) p P' oc ot) :
    ∃ P, HeldAt s G p P oc ot ∧ (∀ i, P i → P' i) := by
  cases h with
  | pool t ht => exact ⟨_, .pool t ht, fun _ h => h⟩
  | queue c hc => exact ⟨_, .queue c hc, fun _ h => h⟩
  | sender oc ot hc => exact ⟨_, .sender _ _ hc, fun _ => know_learn⟩
  | wire x hx => exact ⟨_, .wire x hx, fun _ h => h⟩
  | net r hr => exact ⟨_, .net r hr, fun _ h => h⟩
  | reader r hr => exact ⟨_, .reader _ hr, fun _ => know_learn⟩
  | recv oc ot hc => exact ⟨_, .recv _ _ hc, fun _ => know_learn⟩
  | user c g' hc hm => exact ⟨_, .user _ _ hc hm, fun _ => know_learn⟩

theorem HInv.learn {I : Nat → Prop} {N : Nat} {s : State} {G : Ghost} (h : HInv I N s G) (g : Gor) (Q : Past) :
    HInv I N s (G.learn g Q) := by
  refine ⟨?_, h.idle, h.fresh, ?_, ?_, ?_, h.free, h.maker⟩
  · intro p P' oc ot hh l ht
    obtain ⟨P, hP, hsub⟩ := held_learn hh
    exact Cov.mono (G := G) (h.held p P oc ot hP l ht) hsub
  · intro r hr
    obtain ⟨h1, h2⟩ := h.reader r hr
    exact ⟨CovW.mono (G := G) h1 fun _ => know_learn, h2⟩
  · intro hr
    obtain ⟨h1, h2⟩ := h.recv hr
    exact ⟨CovW.mono (G := G) h1 fun _ => know_learn, h2⟩
  · intro c g' b hd hm
    obtain ⟨h1, h2⟩ := h.done c g' b hd hm
    exact ⟨CovW.mono (G := G) h1 fun _ => know_learn, h2⟩

/-! ### everything is in one place -/

def tagsAt (s : State) : Place → List Tag
  | .pool => s.tags
  | .queue => []
  | .sender => s.sender.tags ++ s.sender.fl.map Prod.snd
  | .wire => s.wire.map fun x => pktTag x.2
  | .net => s.fromNet.map fun r => pktTag r.bytes
  | .reader => s.reader.fl.map Prod.snd
  | .recv => s.recv.tags ++ s.recv.fl.map Prod.snd
  | .user _ => []

def callsAt (s : State) : Place → List (Option Nat)
  | .pool => []
  | .queue => s.fromClient.map some
  | .sender => s.sender.calls ++ s.sender.fl.map Prod.fst
  | .wire => s.wire.map fun x => some x.1
  | .net => s.fromNet.map Reply.owner
  | .reader => s.reader.fl.map Prod.fst
  | .recv => s.recv.fl.map Prod.fst
  | .user _ => []

theorem held_tagsAt {s : State} {G : Ghost} {p : Place} {P : Past} {oc : Option Nat} {t : Tag}
    (h : HeldAt s G p P oc (some t)) : t ∈ tagsAt s p := by
  generalize hot : some t = ot at h
  cases h with
  | pool t ht => simp only [Option.some.injEq] at hot; subst hot; exact ht
  | queue c hc => simp at hot
  | sender oc ot hc =>
    subst hot
    cases hs : s.sender <;> simp_all [Sender.has, tagsAt, Sender.tags, Sender.fl]
  | wire x hx => simp only [Option.some.injEq] at hot; subst hot; exact List.mem_map.mpr ⟨x, hx, rfl⟩
  | net r hr => simp only [Option.some.injEq] at hot; subst hot; exact List.mem_map.mpr ⟨r, hr, rfl⟩
  | reader r hr => simp only [Option.some.injEq] at hot; subst hot; simp [tagsAt, hr, Reader.fl, Reply.fl]
  | recv oc ot hc =>
    subst hot
    cases hs : s.recv <;> simp_all [Recv.has, tagsAt, Recv.tags, Recv.fl, Reply.fl]
  | user c g hc hm => simp at hot

theorem held_callsAt {s : State} {G : Ghost} {p : Place} {P : Past} {c : Nat} {ot : Option Tag}
    (h : HeldAt s G p P (some c) ot) : some c ∈ callsAt s p ∨ c ∈ s.sending := by
  generalize hoc : some c = oc at h
  cases h with
  | pool t ht => simp at hoc
  | queue c hc => simp only [Option.some.injEq] at hoc; subst hoc; exact .inl (List.mem_map.mpr ⟨_, hc, rfl⟩)
  | sender oc ot hc =>
    subst hoc
    cases hs : s.sender <;> simp_all [Sender.has, callsAt, Sender.calls, Sender.fl]
  | wire x hx => simp only [Option.some.injEq] at hoc; subst hoc; exact .inl (List.mem_map.mpr ⟨x, hx, rfl⟩)
  | net r hr => exact .inl (List.mem_map.mpr ⟨r, hr, rfl⟩)
  | reader r hr => exact .inl (by simp [callsAt, hr, Reader.fl, Reply.fl])
  | recv oc ot hc =>
    subst hoc
    cases hs : s.recv <;> simp_all [Recv.has, callsAt, Recv.fl, Reply.fl]
  | user c g hc hm => simp only [Option.some.injEq] at hoc; subst hoc; exact .inr hc

theorem mem_allTags {s : State} {t : Tag} {p : Place} (h : t ∈ tagsAt s p) : t ∈ allTags s := by
  have e1 : (s.wire.map fun x => pktTag x.2) = s.wire.map (Prod.snd ∘ wireFl) := rfl
  have e2 : (s.fromNet.map fun x => pktTag x.bytes) = s.fromNet.map (Prod.snd ∘ Reply.fl) := rfl
  have h := List.count_pos_iff.mpr h
  refine List.count_pos_iff.mp ?_
  cases p <;>
    simp only [tagsAt, e1, e2, allTags, flights, List.map_append, List.map_map, List.count_append, List.count_nil] at h ⊢ <;>
    omega

theorem tags_apart {s : State} (t : Tag) {p q : Place} (hq : q = .sender ∨ q = .recv) (hpq : p ≠ q) :
    (tagsAt s p).count t + (tagsAt s q).count t ≤ (allTags s).count t := by
  have e1 : (s.wire.map fun x => pktTag x.2) = s.wire.map (Prod.snd ∘ wireFl) := rfl
  have e2 : (s.fromNet.map fun x => pktTag x.bytes) = s.fromNet.map (Prod.snd ∘ Reply.fl) := rfl
  rcases hq with rfl | rfl <;> cases p <;>
    simp only [tagsAt, e1, e2, allTags, flights, List.map_append, List.map_map, List.count_append, List.count_nil] <;>
    first | omega | exact absurd rfl hpq

theorem calls_apart {s : State} (c : Nat) {p q : Place} (hq : q = .sender ∨ q = .recv) (hpq : p ≠ q) :
    (callsAt s p).count (some c) + (callsAt s q).count (some c) ≤ (allCalls s).count (some c) := by
  have e1 : (s.wire.map fun x => some x.1) = s.wire.map (Prod.fst ∘ wireFl) := rfl
  have e2 : s.fromNet.map Reply.owner = s.fromNet.map (Prod.fst ∘ Reply.fl) := rfl
  rcases hq with rfl | rfl <;> cases p <;>
    simp only [callsAt, e1, e2, allCalls, flights, List.map_append, List.map_map, List.count_append, List.count_nil] <;>
    first | omega | exact absurd rfl hpq

theorem slot_owner {s : State} {G : Ghost} (hi : Inv s) {t : Tag} {q : Place} (hq : q = .sender ∨ q = .recv)
    (ht : t ∈ tagsAt s q) :
    ∀ p P oc ot, HeldAt s G p P oc ot → Touches oc ot (.slot (t.toNat - 1)) → p = q := by
  intro p P oc ot hh htc
  rcases htc with ⟨t', rfl, e⟩ | ⟨c, -, e | e⟩ <;> simp only [reduceCtorEq, Loc.slot.injEq] at e
  have ht' := held_tagsAt hh
  have l1 := inv_tag_legal hi (mem_allTags ht)
  have l2 := inv_tag_legal hi (mem_allTags ht')
  have e := toNat_pred_inj l1 l2 e
  subst e
  by_cases hpq : p = q
  · exact hpq
  · have := tags_apart (s := s) t hq hpq
    rw [hi.tags t, if_pos l1] at this
    have h1 := List.count_pos_iff.mpr ht
    have h2 := List.count_pos_iff.mpr ht'
    omega

theorem call_owner {s : State} {G : Ghost} (hi : Inv s) {c : Nat} {q : Place} (hq : q = .sender ∨ q = .recv)
    (hc : some c ∈ callsAt s q) {l : Loc} (hl : l = .call c ∨ l = .req c) :
    ∀ p P oc ot, HeldAt s G p P oc ot → Touches oc ot l → p = q := by
  intro p P oc ot hh htc
  have : oc = some c := by
    rcases htc with ⟨t', -, e⟩ | ⟨c', rfl, e | e⟩ <;> rcases hl with rfl | rfl <;> simp_all
  subst this
  have hc1 : 1 ≤ (allCalls s).count (some c) := by
    have h1 := List.count_pos_iff.mpr hc
    have := calls_apart (s := s) c (p := .user 0) hq (by rcases hq with rfl | rfl <;> simp)
    omega
  have hw : (s.phase c).w ≤ 1 := by cases s.phase c <;> simp [Phase.w]
  have hcc := hi.calls c
  rcases held_callsAt hh with hcp | hsd
  · by_cases hpq : p = q
    · exact hpq
    · have := calls_apart (s := s) c hq hpq
      have h1 := List.count_pos_iff.mpr hc
      have h2 := List.count_pos_iff.mpr hcp
      omega
  · have h3 := List.count_pos_iff.mpr hsd
    rw [hi.sending c] at h3
    cases hp : s.phase c <;> simp [hp, Phase.s, Phase.w] at h3 hcc <;> omega
theorem not_idle {s : State} (hi : Inv s) {c : Nat} {q : Place} (hq : q = .sender ∨ q = .recv)
    (hc : some c ∈ callsAt s q) : s.phase c ≠ .idle := by
  intro e
  have h1 := List.count_pos_iff.mpr hc
  have h2 := calls_apart (s := s) c (p := .user 0) hq (by rcases hq with rfl | rfl <;> simp)
  have h3 := hi.calls c
  simp only [e, Phase.w] at h3
  omega

/-! ### the steps -/

theorem HInv.weaken {I I' : Nat → Prop} {N N' : Nat} {s : State} {G : Ghost} (h : HInv I N s G) (hI : ∀ c, I' c → I c)
    (hN : N ≤ N') : HInv I' N' s G :=
  ⟨h.held, fun c hc => h.idle c (hI c hc), fun n hn => h.fresh n (by omega), h.reader, h.recv, h.done, h.free, h.maker⟩

/-- the sender or the receiver reads or writes the call or the request that it holds -/
theorem HInv.accessCall {I : Nat → Prop} {N : Nat} {s : State} {G : Ghost} (h : HInv I N s G) (hi : Inv s)
    (hI : ∀ c, I c → s.phase c = .idle) {q : Place} (hq : q = .sender ∨ q = .recv) {g : Gor} (hg : q.gor = some g) {c : Nat}
    {ot : Option Tag} (hh : HeldAt s G q (G.know g) (some c) ot) (l : Loc) (hl : l = .call c ∨ l = .req c) (w : Bool) :
    HInv I N s (G.access g l w) := by
  have hcov : Cov G (G.know g) l := h.held _ _ _ _ hh l (.inr ⟨c, rfl, hl⟩)
  have hm : some c ∈ callsAt s q := by
    generalize hoc : some c = oc at hh
    generalize hP : G.know g = P at hh
    cases hh with
    | sender oc ot hc =>
      subst hoc
      cases hs : s.sender <;> simp_all [Sender.has, callsAt, Sender.calls, Sender.fl]
    | recv oc ot hc =>
      subst hoc
      cases hs : s.recv <;> simp_all [Recv.has, callsAt, Recv.fl, Reply.fl]
    | _ => rcases hq with hq | hq <;> simp at hq
  refine h.access g l w (fun _ _ => hcov) (fun _ => hcov.w) ?_ ?_ ?_
  · intro p P oc ot hh' ht
    rw [call_owner hi hq hm hl p P oc ot hh' ht, hg]
  · intro c' hc'
    have hne : c' ≠ c := by
      rintro rfl
      exact not_idle hi hq hm (hI _ hc')
    rcases hl with rfl | rfl <;> simp <;> exact fun e => hne e.symm
  · intro n e
    rcases hl with rfl | rfl <;> simp at e

/-- the sender or the receiver reads or writes the entry of the tag that it holds -/
theorem HInv.accessSlot {I : Nat → Prop} {N : Nat} {s : State} {G : Ghost} (h : HInv I N s G) (hi : Inv s)
    {q : Place} (hq : q = .sender ∨ q = .recv) {g : Gor} (hg : q.gor = some g) {oc : Option Nat} {t : Tag}
    (hh : HeldAt s G q (G.know g) oc (some t)) (w : Bool) : HInv I N s (G.access g (.slot (t.toNat - 1)) w) := by
  have hcov : Cov G (G.know g) (.slot (t.toNat - 1)) := h.held _ _ _ _ hh _ (.inl ⟨t, rfl, rfl⟩)
  refine h.access g _ w (fun _ _ => hcov) (fun _ => hcov.w) ?_ ?_ ?_
  · intro p P oc ot hh' ht
    rw [slot_owner hi hq (held_tagsAt hh) p P oc ot hh' ht, hg]
  · intro c _; simp
  · intro n e; simp at e

/-- an access to the bytes of a reply that nobody writes any more -/
theorem HInv.accessRep {I : Nat → Prop} {N : Nat} {s : State} {G : Ghost} (h : HInv I N s G) (g : Gor) {n : Nat} (hn : n < N)
    (hc : CovW G (G.know g) (.rep n)) : HInv I N s (G.access g (.rep n) false) := by
  refine h.access g _ false (fun _ e => by simp at e) (fun _ => hc) ?_ ?_ ?_
  · intro p P oc ot _ ht
    rcases ht with ⟨t, -, e⟩ | ⟨c, -, e | e⟩ <;> simp at e
  · intro c _; simp
  · intro m e
    simp only [Loc.rep.injEq] at e
    exact ⟨by omega, fun e => by simp at e⟩

/-- an access that does not matter here -/
theorem HInv.accessPlain {I : Nat → Prop} {N : Nat} {s : State} {G : Ghost} (h : HInv I N s G) (g : Gor) {l : Loc}
    (hl : l = .fid ∨ l = .dead) (w : Bool) : HInv I N s (G.access g l w) := by
  refine h.access g _ w (fun e => ?_) (fun e => ?_) ?_ ?_ ?_
  · rcases hl with rfl | rfl <;> simp at e
  · rcases hl with rfl | rfl <;> simp at e
  · intro p P oc ot _ ht
    rcases hl with rfl | rfl <;> rcases ht with ⟨t, -, e⟩ | ⟨c, -, e | e⟩ <;> simp at e
  · intro c _; rcases hl with rfl | rfl <;> simp
  · intro m e; rcases hl with rfl | rfl <;> simp at e

theorem touches_call {oc : Option Nat} {ot : Option Tag} {l : Loc} {c : Nat} (h : Touches oc ot l)
    (hl : l = .call c ∨ l = .req c) : oc = some c := by
  rcases h with ⟨t, -, e⟩ | ⟨c', rfl, e | e⟩ <;> rcases hl with rfl | rfl <;> simp_all

theorem idle_nowhere {s : State} {G : Ghost} (hi : Inv s) {c : Nat} (hc : s.phase c = .idle) {p : Place} {P : Past}
    {ot : Option Tag} (h : HeldAt s G p P (some c) ot) : False := by
  have h3 := hi.calls c
  have h4 := hi.sending c
  simp only [hc, Phase.w, Phase.s] at h3 h4
  rcases held_callsAt h with h | h
  · have h1 := List.count_pos_iff.mpr h
    by_cases hp : p = .sender
    · have := calls_apart (s := s) c (p := .user 0) (.inl hp) (by simp [hp])
      omega
    · have := calls_apart (s := s) c (.inl rfl) hp
      omega
  · have h1 := List.count_pos_iff.mpr h
    omega

theorem hok_call {s : State} {G : Ghost} (hi : Inv s) (h : HOk s G) (g c : Nat) (m : TMsg) (hc : s.phase c = .idle) :
    HOk { s with
        phase := upd s.phase c .sending
        sending := c :: s.sending
        msg := upd s.msg c (some m)
        buf := upd s.buf c (encodeT {} 0 m).bytes }
      { ((G.access (.user g) .fid false).access (.user g) (.req c) true).access (.user g) (.call c) true with
          maker := upd G.maker c (some g) } := by
  have h1 : HInv (fun d => s.phase d = .idle ∧ d ≠ c) G.nread s G := HInv.weaken h (fun _ h => h.1) (Nat.le_refl _)
  have h2 := h1.accessPlain (.user g) (.inl rfl : Loc.fid = .fid ∨ _) false
  have hr2 : Cov (G.access (.user g) .fid false) (fun _ => False) (.req c) :=
    cov_access_other (h.idle c hc _ (.inr rfl)) (by simp)
  have hc2 : Cov (G.access (.user g) .fid false) (fun _ => False) (.call c) :=
    cov_access_other (h.idle c hc _ (.inl rfl)) (by simp)
  have h3 := h2.access (.user g) (.req c) true (fun _ _ => hr2.mono fun _ h => h.elim) (fun _ => (hr2.mono fun _ h => h.elim).w)
    (fun p P oc ot hh ht => by
      have := touches_call ht (.inr rfl)
      subst this
      exact (idle_nowhere hi hc hh).elim)
    (fun d hd => ⟨by simp, by simp; exact fun e => hd.2 e.symm⟩) (fun n e => by simp at e)
  have hr3 : Cov ((G.access (.user g) .fid false).access (.user g) (.req c) true)
      (((G.access (.user g) .fid false).access (.user g) (.req c) true).know (.user g)) (.req c) :=
    cov_access_self hr2 (fun _ h => h.elim) (know_access_new ..)
  have hc3 : Cov ((G.access (.user g) .fid false).access (.user g) (.req c) true) (fun _ => False) (.call c) :=
    cov_access_other hc2 (by simp)
  have h4 := h3.access (.user g) (.call c) true (fun _ _ => hc3.mono fun _ h => h.elim)
    (fun _ => (hc3.mono fun _ h => h.elim).w)
    (fun p P oc ot hh ht => by
      have := touches_call ht (.inl rfl)
      subst this
      exact (idle_nowhere hi hc hh).elim)
    (fun d hd => ⟨by simp; exact fun e => hd.2 e.symm, by simp⟩) (fun n e => by simp at e)
  have hr4 := (cov_access_other (g := .user g) (w := true) (l' := .call c) hr3 (by simp)).mono
    (fun i => know_access (g := .user g) (l := .call c) (w := true))
  have hc4 : Cov (((G.access (.user g) .fid false).access (.user g) (.req c) true).access (.user g) (.call c) true)
      ((((G.access (.user g) .fid false).access (.user g) (.req c) true).access (.user g) (.call c) true).know (.user g)) (.call c) :=
    cov_access_self hc3 (fun _ h => h.elim) (know_access_new ..)
  have hm4 : ∀ d, d ≠ c → upd G.maker c (some g) d =
    (((G.access (.user g) .fid false).access (.user g) (.req c) true).access (.user g) (.call c) true).maker d :=
    fun d hd => upd_other _ _ hd
  have hnr : (((G.access (.user g) .fid false).access (.user g) (.req c) true).access (.user g) (.call c) true).nread = G.nread := rfl
  generalize hG : ((G.access (.user g) .fid false).access (.user g) (.req c) true).access (.user g) (.call c) true = G4 at *
  refine ⟨?_, ?_, ?_, h4.reader, h4.recv, ?_, h4.free, ?_⟩
  · intro p P oc ot hh l ht
    cases hh with
    | pool t ht' => exact h4.held _ _ _ _ (.pool t ht') l ht
    | queue d hd => exact h4.held _ _ _ _ (.queue d hd) l ht
    | sender oc ot hd => exact h4.held _ _ _ _ (.sender oc ot hd) l ht
    | wire x hx => exact h4.held _ _ _ _ (.wire x hx) l ht
    | net r hr => exact h4.held _ _ _ _ (.net r hr) l ht
    | reader r hr => exact h4.held _ _ _ _ (.reader r hr) l ht
    | recv oc ot hd => exact h4.held _ _ _ _ (.recv oc ot hd) l ht
    | user d g' hd hm =>
      by_cases e : d = c
      · subst e
        simp only [upd_same, Option.some.injEq] at hm
        subst hm
        rcases ht with ⟨t, e, -⟩ | ⟨d', e, hl⟩
        · simp at e
        · simp only [Option.some.injEq] at e
          subst e
          rcases hl with rfl | rfl
          · exact hc4
          · exact hr4
      · simp only [List.mem_cons, e, false_or] at hd
        exact h4.held _ _ _ _ (.user d g' hd (by rw [← hm4 d e]; exact hm)) l ht
  · intro d hd
    have e : d ≠ c := by rintro rfl; simp [upd_same] at hd
    simp only [upd_other _ _ e] at hd
    exact h4.idle d ⟨hd, e⟩
  · exact fun n hn => h4.fresh n (by rw [← hnr]; exact hn)
  · intro d g' b hd hm
    have e : d ≠ c := by rintro rfl; simp [upd_same] at hd
    simp only [upd_other _ _ e] at hd
    exact h4.done d g' b hd (by rw [← hm4 d e]; exact hm)
  · intro d hd
    by_cases e : d = c
    · subst e; exact ⟨g, upd_same ..⟩
    · simp only [upd_other _ _ e] at hd
      obtain ⟨g', hg'⟩ := h4.maker d hd
      exact ⟨g', by rw [← hg']; exact hm4 d e⟩

theorem hok_write {s : State} {G2 : Ghost} (hi : Inv s) (h2 : HOk s G2) {c : Nat} {t : Tag} (hsd : s.sender = .stored c t) :
    HOk { s with
        sender := .idle
        wire := s.wire ++ [(c, s.buf c)]
        written := s.written ++ [(c, s.buf c)] }
      { G2 with netPast := upd G2.netPast c (G2.know .sender) } := by
  have hh : HeldAt s G2 .sender (G2.know .sender) (some c) (some t) := .sender _ _ (by rw [hsd]; exact ⟨rfl, rfl⟩)
  have hcs : some c ∈ callsAt s .sender := by simp [callsAt, hsd, Sender.calls, Sender.fl]
  have huniq : ∀ p P ot, HeldAt s G2 p P (some c) ot → p = .sender := fun p P ot hh' =>
    call_owner hi (.inl rfl) hcs (.inl rfl) p P _ _ hh' (.inr ⟨c, rfl, .inl rfl⟩)
  have htag : pktTag (s.buf c) = t := by
    obtain ⟨m, -, e⟩ := hi.tagged c t (.inr hsd)
    rw [e, pktTag_packet]
  refine ⟨?_, h2.idle, h2.fresh, h2.reader, h2.recv, h2.done, h2.free, h2.maker⟩
  intro p P oc ot hh' l hl
  cases hh' with
  | pool t' ht' => exact h2.held _ _ _ _ (.pool t' ht') l hl
  | queue d hd => exact h2.held _ _ _ _ (.queue d hd) l hl
  | sender oc ot hd => exact hd.elim
  | wire x hx =>
    by_cases e : x.1 = c
    · rcases List.mem_append.mp hx with hx | hx
      · have := huniq _ _ _ (e ▸ HeldAt.wire (s := s) (G := G2) x hx)
        simp at this
      · simp only [List.mem_cons, List.not_mem_nil, or_false] at hx
        subst hx
        simp only [upd_same]
        rw [htag] at hl
        exact h2.held _ _ _ _ hh l hl
    · simp only [upd_other _ _ e]
      refine h2.held _ _ _ _ (.wire x ?_) l hl
      rcases List.mem_append.mp hx with hx | hx
      · exact hx
      · simp only [List.mem_cons, List.not_mem_nil, or_false] at hx
        subst hx
        exact absurd rfl e
  | net r hr =>
    have e : Ghost.answer { G2 with netPast := upd G2.netPast c (G2.know .sender) } r = G2.answer r := by
      simp only [Ghost.answer]
      cases ho : r.owner with
      | none => rfl
      | some d =>
        have hd : d ≠ c := by
          rintro rfl
          have := huniq _ _ _ (ho ▸ HeldAt.net (s := s) (G := G2) r hr)
          simp at this
        simp only [upd_other _ _ hd]
    rw [e]
    exact h2.held _ _ _ _ (.net r hr) l hl
  | reader r hr => exact h2.held _ _ _ _ (.reader r hr) l hl
  | recv oc ot hd => exact h2.held _ _ _ _ (.recv oc ot hd) l hl
  | user d g' hd hm => exact h2.held _ _ _ _ (.user d g' hd hm) l hl

theorem hok_read {s : State} {G1 : Ghost} (h1 : HOk s G1) {r : Reply} {rs : List Reply} (hn : s.fromNet = r :: rs)
    (hheld : ∀ l, Touches r.owner (some (pktTag r.bytes)) l → Cov G1 (G1.know .reader) l) :
    HOk { s with reader := .holding r, fromNet := rs }
      { G1.access .reader (.rep G1.nread) true with nread := (G1.access .reader (.rep G1.nread) true).nread + 1 } := by
  have hf := h1.fresh G1.nread (Nat.le_refl _)
  have h2 := (HInv.weaken h1 (fun _ h => h) (Nat.le_succ _)).access .reader (.rep G1.nread) true
    (fun _ _ => hf.mono fun _ h => h.elim) (fun _ => (hf.mono fun _ h => h.elim).w)
    (fun p P oc ot _ ht => by rcases ht with ⟨t, -, e⟩ | ⟨c, -, e | e⟩ <;> simp at e)
    (fun c _ => by simp) (fun n e => by simp only [Loc.rep.injEq] at e; exact ⟨by omega, fun _ => by omega⟩)
  have hcr : Cov (G1.access .reader (.rep G1.nread) true) ((G1.access .reader (.rep G1.nread) true).know .reader)
      (.rep G1.nread) := cov_access_self hf (fun _ h => h.elim) (know_access_new ..)
  have hheld2 : ∀ l, Touches r.owner (some (pktTag r.bytes)) l → Cov (G1.access .reader (.rep G1.nread) true)
      ((G1.access .reader (.rep G1.nread) true).know .reader) l := fun l hl =>
    (cov_access_other (hheld l hl) (by rcases hl with ⟨t, -, e⟩ | ⟨c, -, e | e⟩ <;> simp [e])).mono fun _ => know_access
  have hnr2 : (G1.access .reader (.rep G1.nread) true).nread = G1.nread := rfl
  generalize G1.access .reader (.rep G1.nread) true = G2 at *
  refine ⟨?_, h2.idle, fun n hn => h2.fresh n (by simpa [hnr2] using hn), ?_, ?_, ?_, h2.free, h2.maker⟩
  · intro p P oc ot hh l hl
    cases hh with
    | pool t' ht' => exact h2.held _ _ _ _ (.pool t' ht') l hl
    | queue d hd => exact h2.held _ _ _ _ (.queue d hd) l hl
    | sender oc ot hd => exact h2.held _ _ _ _ (.sender oc ot hd) l hl
    | wire z hz => exact h2.held _ _ _ _ (.wire z hz) l hl
    | net r' hr => exact h2.held _ _ _ _ (.net r' (by rw [hn]; exact List.mem_cons_of_mem _ hr)) l hl
    | reader r' hr =>
      simp only [Reader.holding.injEq] at hr
      subst hr
      exact hheld2 l hl
    | recv oc ot hd => exact h2.held _ _ _ _ (.recv oc ot hd) l hl
    | user d g' hd hm => exact h2.held _ _ _ _ (.user d g' hd hm) l hl
  · intro r' _
    refine ⟨?_, by simp⟩
    simp only [Nat.add_sub_cancel, hnr2]
    exact hcr.w
  · intro hr
    obtain ⟨e1, e2⟩ := h2.recv hr
    exact ⟨e1, by show _ < G2.nread + 1; exact Nat.lt_succ_of_lt e2⟩
  · intro c g b hd hm
    obtain ⟨e1, e2⟩ := h2.done c g b hd hm
    exact ⟨e1, by show _ < G2.nread + 1; exact Nat.lt_succ_of_lt e2⟩

theorem hok_deliver {s : State} {G2 : Ghost} (h2 : HOk s G2) {c g : Nat} {t : Tag} {b : Bytes} (hrc : s.recv = .found c t b)
    (hm : G2.maker c = some g) :
    HOk { s with recv := .retag t, phase := upd s.phase c (.done b) }
      { G2.learn (.user g) (G2.know .receiver) with got := upd G2.got c G2.recvId } := by
  have hh : ∀ G, HeldAt s G .recv (G.know .receiver) (some c) (some t) := fun G =>
    .recv _ _ (by rw [hrc]; exact ⟨rfl, rfl⟩)
  obtain ⟨e3, e4⟩ := h2.recv (.inr ⟨c, t, b, hrc⟩)
  have h3 := HInv.learn h2 (.user g) (G2.know .receiver)
  refine ⟨?_, ?_, h3.fresh, h3.reader, fun hr => by simp at hr, ?_, h3.free, ?_⟩
  · intro p P oc ot hh' l hl
    cases hh' with
    | pool t' ht' => exact h3.held _ _ _ _ (.pool t' ht') l hl
    | queue d hd => exact h3.held _ _ _ _ (.queue d hd) l hl
    | sender oc ot hd => exact h3.held _ _ _ _ (.sender oc ot hd) l hl
    | wire z hz => exact h3.held _ _ _ _ (.wire z hz) l hl
    | net r' hr => exact h3.held _ _ _ _ (.net r' hr) l hl
    | reader r' hr => exact h3.held _ _ _ _ (.reader r' hr) l hl
    | recv oc ot hd =>
      obtain ⟨rfl, rfl⟩ := hd
      rcases hl with ⟨t', e, el⟩ | ⟨c', e, el⟩
      · exact h3.held _ _ _ _ (hh _) l (.inl ⟨t', e, el⟩)
      · simp at e
    | user d g' hd hm => exact h3.held _ _ _ _ (.user d g' hd hm) l hl
  · intro d hd
    have e : d ≠ c := by rintro rfl; simp [upd_same] at hd
    simp only [upd_other _ _ e] at hd
    exact h3.idle d hd
  · intro d g' b' hd hm'
    by_cases e : d = c
    · subst e
      have : g' = g := by
        have : some g' = some g := by rw [← hm, ← hm']; rfl
        simpa using this
      subst this
      simp only [upd_same]
      refine ⟨CovW.mono (G := G2) ?_ fun _ => know_learnt, ?_⟩
      · exact e3
      · exact e4
    · simp only [upd_other _ _ e] at hd ⊢
      have := h3.done d g' b' hd hm'
      exact this
  · intro d hd
    by_cases e : d = c
    · subst e; exact ⟨g, hm⟩
    · simp only [upd_other _ _ e] at hd
      exact h3.maker d hd

theorem hok_step {s s' : State} {G G' : Ghost} {l : Label} (hl : Abiding l) (hi : Inv s) (h : HOk s G)
    (hs : RStep l (s, G) (s', G')) : HOk s' G' := by
  cases hs with
  | call _ _ g c m hc hf => exact hok_call hi h g c m hc
  | getTag _ _ g t ts ht =>
    have h1 := HInv.learn h (.user g) (G.tagPast t)
    refine ⟨?_, h1.idle, h1.fresh, h1.reader, h1.recv, h1.done, h1.free, h1.maker⟩
    intro p P oc ot hh l hl
    cases hh with
    | pool t' ht' => exact h1.held _ _ _ _ (.pool t' (by rw [ht]; exact List.mem_cons_of_mem _ ht')) l hl
    | queue d hd => exact h1.held _ _ _ _ (.queue d hd) l hl
    | sender oc ot hd => exact h1.held _ _ _ _ (.sender oc ot hd) l hl
    | wire x hx => exact h1.held _ _ _ _ (.wire x hx) l hl
    | net r hr => exact h1.held _ _ _ _ (.net r hr) l hl
    | reader r hr => exact h1.held _ _ _ _ (.reader r hr) l hl
    | recv oc ot hd => exact h1.held _ _ _ _ (.recv oc ot hd) l hl
    | user d g' hd hm => exact h1.held _ _ _ _ (.user d g' hd hm) l hl
  | enqueue _ _ a b c g hsd hq hm =>
    refine ⟨?_, ?_, h.fresh, h.reader, h.recv, ?_, h.free, ?_⟩
    · intro p P oc ot hh l hl
      cases hh with
      | pool t' ht' => exact h.held _ _ _ _ (.pool t' ht') l hl
      | queue d hd =>
        by_cases e : d = c
        · subst e
          simp only [upd_same]
          exact h.held _ _ _ _ (.user d g (by rw [hsd]; simp) hm) l hl
        · simp only [upd_other _ _ e]
          exact h.held _ _ _ _ (.queue d (by simpa [e] using hd)) l hl
      | sender oc ot hd => exact h.held _ _ _ _ (.sender oc ot hd) l hl
      | wire x hx => exact h.held _ _ _ _ (.wire x hx) l hl
      | net r hr => exact h.held _ _ _ _ (.net r hr) l hl
      | reader r hr => exact h.held _ _ _ _ (.reader r hr) l hl
      | recv oc ot hd => exact h.held _ _ _ _ (.recv oc ot hd) l hl
      | user d g' hd hm' =>
        exact h.held _ _ _ _ (.user d g' (by rw [hsd]; simp only [List.mem_append, List.mem_cons] at hd ⊢; exact hd.elim .inl fun h => .inr (.inr h)) hm') l hl
    · intro d hd
      have e : d ≠ c := by rintro rfl; simp [upd_same] at hd
      simp only [upd_other _ _ e] at hd
      exact h.idle d hd
    · intro d g' b' hd hm'
      have e : d ≠ c := by rintro rfl; simp [upd_same] at hd
      simp only [upd_other _ _ e] at hd
      exact h.done d g' b' hd hm'
    · intro d hd
      by_cases e : d = c
      · subst e; exact ⟨g, hm⟩
      · simp only [upd_other _ _ e] at hd
        exact h.maker d hd
  | takeReq _ _ c cs hsd hq =>
    have h1 := HInv.learn h .sender (G.reqPast c)
    refine ⟨?_, h1.idle, h1.fresh, h1.reader, h1.recv, h1.done, h1.free, h1.maker⟩
    intro p P oc ot hh l hl
    cases hh with
    | pool t' ht' => exact h1.held _ _ _ _ (.pool t' ht') l hl
    | queue d hd => exact h1.held _ _ _ _ (.queue d (by rw [hq]; exact List.mem_cons_of_mem _ hd)) l hl
    | sender oc ot hd =>
      obtain ⟨rfl, rfl⟩ := hd
      exact Cov.mono (h1.held _ _ _ _ (.queue c (by rw [hq]; simp)) l hl) fun _ => know_learnt
    | wire x hx => exact h1.held _ _ _ _ (.wire x hx) l hl
    | net r hr => exact h1.held _ _ _ _ (.net r hr) l hl
    | reader r hr => exact h1.held _ _ _ _ (.reader r hr) l hl
    | recv oc ot hd => exact h1.held _ _ _ _ (.recv oc ot hd) l hl
    | user d g' hd hm => exact h1.held _ _ _ _ (.user d g' hd hm) l hl
  | takeTag _ _ c t ts hsd ht =>
    have h1 := HInv.learn h .sender (G.tagPast t)
    refine ⟨?_, h1.idle, h1.fresh, h1.reader, h1.recv, h1.done, h1.free, h1.maker⟩
    intro p P oc ot hh l hl
    cases hh with
    | pool t' ht' => exact h1.held _ _ _ _ (.pool t' (by rw [ht]; exact List.mem_cons_of_mem _ ht')) l hl
    | queue d hd => exact h1.held _ _ _ _ (.queue d hd) l hl
    | sender oc ot hd =>
      obtain ⟨rfl, rfl⟩ := hd
      rcases hl with ⟨t', e, el⟩ | ⟨c', e, el⟩
      · exact Cov.mono (h1.held _ _ _ _ (.pool t (by rw [ht]; simp)) l (.inl ⟨t', e, el⟩)) fun _ => know_learnt
      · exact h1.held _ _ _ _ (.sender (some c) none (by rw [hsd]; exact ⟨rfl, rfl⟩)) l (.inr ⟨c', e, el⟩)
    | wire x hx => exact h1.held _ _ _ _ (.wire x hx) l hl
    | net r hr => exact h1.held _ _ _ _ (.net r hr) l hl
    | reader r hr => exact h1.held _ _ _ _ (.reader r hr) l hl
    | recv oc ot hd => exact h1.held _ _ _ _ (.recv oc ot hd) l hl
    | user d g' hd hm => exact h1.held _ _ _ _ (.user d g' hd hm) l hl
  | putTag _ _ c t hsd =>
    have hh : ∀ G, HeldAt s G .sender (G.know .sender) (some c) (some t) := fun G =>
      .sender _ _ (by rw [hsd]; exact ⟨rfl, rfl⟩)
    have h1 := HInv.accessCall h hi (fun _ h => h) (.inl rfl) rfl (hh G) (.call c) (.inl rfl) false
    have h2 := h1.accessCall hi (fun _ h => h) (.inl rfl) rfl (hh _) (.req c) (.inr rfl) true
    refine ⟨?_, h2.idle, h2.fresh, h2.reader, h2.recv, h2.done, h2.free, h2.maker⟩
    intro p P oc ot hh l hl
    cases hh with
    | pool t' ht' => exact h2.held _ _ _ _ (.pool t' ht') l hl
    | queue d hd => exact h2.held _ _ _ _ (.queue d hd) l hl
    | sender oc ot hd => exact h2.held _ _ _ _ (.sender oc ot (by rw [hsd]; exact hd)) l hl
    | wire x hx => exact h2.held _ _ _ _ (.wire x hx) l hl
    | net r hr => exact h2.held _ _ _ _ (.net r hr) l hl
    | reader r hr => exact h2.held _ _ _ _ (.reader r hr) l hl
    | recv oc ot hd => exact h2.held _ _ _ _ (.recv oc ot hd) l hl
    | user d g' hd hm => exact h2.held _ _ _ _ (.user d g' hd hm) l hl
  | store _ _ c t hsd =>
    have h2 := HInv.accessSlot h hi (.inl rfl) rfl (.sender (some c) (some t) (by rw [hsd]; exact ⟨rfl, rfl⟩)) true
    refine ⟨?_, h2.idle, h2.fresh, h2.reader, h2.recv, h2.done, h2.free, h2.maker⟩
    intro p P oc ot hh l hl
    cases hh with
    | pool t' ht' => exact h2.held _ _ _ _ (.pool t' ht') l hl
    | queue d hd => exact h2.held _ _ _ _ (.queue d hd) l hl
    | sender oc ot hd => exact h2.held _ _ _ _ (.sender oc ot (by rw [hsd]; exact hd)) l hl
    | wire x hx => exact h2.held _ _ _ _ (.wire x hx) l hl
    | net r hr => exact h2.held _ _ _ _ (.net r hr) l hl
    | reader r hr => exact h2.held _ _ _ _ (.reader r hr) l hl
    | recv oc ot hd => exact h2.held _ _ _ _ (.recv oc ot hd) l hl
    | user d g' hd hm => exact h2.held _ _ _ _ (.user d g' hd hm) l hl
  | write _ _ c t hsd =>
    have hh : ∀ G, HeldAt s G .sender (G.know .sender) (some c) (some t) := fun G =>
      .sender _ _ (by rw [hsd]; exact ⟨rfl, rfl⟩)
    have h1 := HInv.accessCall h hi (fun _ h => h) (.inl rfl) rfl (hh G) (.call c) (.inl rfl) false
    have h2 := h1.accessCall hi (fun _ h => h) (.inl rfl) rfl (hh _) (.req c) (.inr rfl) false
    exact hok_write (G2 := (G.access .sender (.call c) false).access .sender (.req c) false) hi h2 hsd
  | reply _ _ x y c q b hw hb hb' hcl =>
    have htag : pktTag b = pktTag q := by
      obtain ⟨m, t, -, -, e⟩ := hi.wire (c, q) (by rw [hw]; simp)
      simp only at e
      exact pktTag_tagField hb' (pktLen_seven hb) (e ▸ packetT_length m t)
    refine ⟨?_, h.idle, h.fresh, h.reader, h.recv, h.done, h.free, h.maker⟩
    intro p P oc ot hh l hl
    cases hh with
    | pool t' ht' => exact h.held _ _ _ _ (.pool t' ht') l hl
    | queue d hd => exact h.held _ _ _ _ (.queue d hd) l hl
    | sender oc ot hd => exact h.held _ _ _ _ (.sender oc ot hd) l hl
    | wire z hz => exact h.held _ _ _ _ (.wire z (by rw [hw]; simp only [List.mem_append, List.mem_cons] at hz ⊢; exact hz.elim .inl fun h => .inr (.inr h))) l hl
    | net r hr =>
      rcases List.mem_append.mp hr with hr | hr
      · exact h.held _ _ _ _ (.net r hr) l hl
      · simp only [List.mem_cons, List.not_mem_nil, or_false] at hr
        subst hr
        simp only [htag] at hl
        exact h.held _ _ _ _ (.wire (c, q) (by rw [hw]; simp)) l hl
    | reader r hr => exact h.held _ _ _ _ (.reader r hr) l hl
    | recv oc ot hd => exact h.held _ _ _ _ (.recv oc ot hd) l hl
    | user d g' hd hm => exact h.held _ _ _ _ (.user d g' hd hm) l hl
  | junk => exact hl.elim
  | close =>
    refine ⟨?_, h.idle, h.fresh, h.reader, h.recv, h.done, h.free, h.maker⟩
    intro p P oc ot hh l hl
    cases hh with
    | pool t' ht' => exact h.held _ _ _ _ (.pool t' ht') l hl
    | queue d hd => exact h.held _ _ _ _ (.queue d hd) l hl
    | sender oc ot hd => exact h.held _ _ _ _ (.sender oc ot hd) l hl
    | wire z hz => exact h.held _ _ _ _ (.wire z hz) l hl
    | net r hr => exact h.held _ _ _ _ (.net r hr) l hl
    | reader r hr => exact h.held _ _ _ _ (.reader r hr) l hl
    | recv oc ot hd => exact h.held _ _ _ _ (.recv oc ot hd) l hl
    | user d g' hd hm => exact h.held _ _ _ _ (.user d g' hd hm) l hl
  | read _ _ r rs hrd hn =>
    have h1 := (HInv.accessPlain h .reader (.inr rfl : Loc.dead = .fid ∨ _) false).learn .reader (G.answer r)
    have hheld : ∀ l, Touches r.owner (some (pktTag r.bytes)) l →
        Cov ((G.access .reader .dead false).learn .reader (G.answer r))
          (((G.access .reader .dead false).learn .reader (G.answer r)).know .reader) l := fun l hl =>
      Cov.mono (h1.held _ _ _ _ (.net r (by rw [hn]; simp)) l hl) fun _ => know_learnt
    exact hok_read (G1 := (G.access .reader .dead false).learn .reader (G.answer r)) h1 hn hheld
  | readEOF _ _ hrd hn hcl =>
    have h2 := (HInv.accessPlain h .reader (.inr rfl : Loc.dead = .fid ∨ _) false).accessPlain .reader
      (.inr rfl : Loc.dead = .fid ∨ _) true
    refine ⟨?_, h2.idle, h2.fresh, fun r hr => by simp at hr, h2.recv, h2.done, h2.free, h2.maker⟩
    intro p P oc ot hh l hl
    cases hh with
    | pool t' ht' => exact h2.held _ _ _ _ (.pool t' ht') l hl
    | queue d hd => exact h2.held _ _ _ _ (.queue d hd) l hl
    | sender oc ot hd => exact h2.held _ _ _ _ (.sender oc ot hd) l hl
    | wire z hz => exact h2.held _ _ _ _ (.wire z hz) l hl
    | net r' hr => exact h2.held _ _ _ _ (.net r' hr) l hl
    | reader r' hr => simp at hr
    | recv oc ot hd => exact h2.held _ _ _ _ (.recv oc ot hd) l hl
    | user d g' hd hm => exact h2.held _ _ _ _ (.user d g' hd hm) l hl
  | handOver _ _ r hrd hrc =>
    have h1 := HInv.learn h .receiver (G.know .reader)
    refine ⟨?_, h1.idle, h1.fresh, fun r hr => by simp at hr, ?_, h1.done, h1.free, h1.maker⟩
    · intro p P oc ot hh l hl
      cases hh with
      | pool t' ht' => exact h1.held _ _ _ _ (.pool t' ht') l hl
      | queue d hd => exact h1.held _ _ _ _ (.queue d hd) l hl
      | sender oc ot hd => exact h1.held _ _ _ _ (.sender oc ot hd) l hl
      | wire z hz => exact h1.held _ _ _ _ (.wire z hz) l hl
      | net r' hr => exact h1.held _ _ _ _ (.net r' hr) l hl
      | reader r' hr => simp at hr
      | recv oc ot hd =>
        obtain ⟨rfl, rfl⟩ := hd
        exact Cov.mono (G := G) (h.held _ _ _ _ (.reader r hrd) l hl) fun _ => know_learnt (G := G) (g := .receiver)
      | user d g' hd hm => exact h1.held _ _ _ _ (.user d g' hd hm) l hl
    · intro _
      obtain ⟨e1, e2⟩ := h.reader r hrd
      exact ⟨CovW.mono (G := G) e1 fun _ => know_learnt (G := G) (g := .receiver), by show G.nread - 1 < G.nread; omega⟩
  | handOverNil _ _ hrd hrc =>
    refine ⟨?_, h.idle, h.fresh, h.reader, fun hr => by simp at hr, h.done, h.free, h.maker⟩
    intro p P oc ot hh l hl
    cases hh with
    | pool t' ht' => exact h.held _ _ _ _ (.pool t' ht') l hl
    | queue d hd => exact h.held _ _ _ _ (.queue d hd) l hl
    | sender oc ot hd => exact h.held _ _ _ _ (.sender oc ot hd) l hl
    | wire z hz => exact h.held _ _ _ _ (.wire z hz) l hl
    | net r' hr => exact h.held _ _ _ _ (.net r' hr) l hl
    | reader r' hr => exact h.held _ _ _ _ (.reader r' hr) l hl
    | recv oc ot hd => exact hd.elim
    | user d g' hd hm => exact h.held _ _ _ _ (.user d g' hd hm) l hl
  | lookup _ _ r hrc =>
    obtain ⟨c, ho, hrpc⟩ := hi.link (r.owner, pktTag r.bytes) (by simp [flights, hrc, Recv.fl, Reply.fl])
    simp only at ho hrpc
    have hh : ∀ G, HeldAt s G .recv (G.know .receiver) (some c) (some (pktTag r.bytes)) := fun G =>
      .recv _ _ (by rw [hrc]; exact ⟨ho.symm, rfl⟩)
    have hlg := inv_tag_legal hi (mem_allTags (held_tagsAt (hh G)))
    have hlk : Client.lookup true s.rpc r.bytes = .found c (pktTag r.bytes) r.bytes := lookup_found hlg hrpc
    have hG : G.lookup s.rpc r.bytes = (((G.access .receiver (.rep G.recvId) false).access .receiver
        (.slot ((pktTag r.bytes).toNat - 1)) false).access .receiver (.call c) false).access .receiver (.req c) false := by
      simp only [Ghost.lookup, hrpc]
      rw [if_neg]
      obtain ⟨h1, h2⟩ := hlg
      rw [UInt16.lt_iff_toNat_lt]
      simp only [NumTags]
      rintro (h3 | h3)
      · have : (1 : UInt16).toNat = 1 := rfl
        omega
      · omega
    rw [hlk, hG]
    obtain ⟨e1, e2⟩ := h.recv (.inl ⟨r, hrc⟩)
    have h1 := HInv.accessRep h .receiver e2 e1
    have h2 := h1.accessSlot hi (.inr rfl) rfl (hh _) false
    have h3 := h2.accessCall hi (fun _ h => h) (.inr rfl) rfl (hh _) (.call c) (.inl rfl) false
    have h4 := h3.accessCall hi (fun _ h => h) (.inr rfl) rfl (hh _) (.req c) (.inr rfl) false
    refine ⟨?_, h4.idle, h4.fresh, h4.reader, fun _ => h4.recv (.inl ⟨r, hrc⟩), h4.done, h4.free, h4.maker⟩
    intro p P oc ot hh' l hl
    cases hh' with
    | pool t' ht' => exact h4.held _ _ _ _ (.pool t' ht') l hl
    | queue d hd => exact h4.held _ _ _ _ (.queue d hd) l hl
    | sender oc ot hd => exact h4.held _ _ _ _ (.sender oc ot hd) l hl
    | wire z hz => exact h4.held _ _ _ _ (.wire z hz) l hl
    | net r' hr => exact h4.held _ _ _ _ (.net r' hr) l hl
    | reader r' hr => exact h4.held _ _ _ _ (.reader r' hr) l hl
    | recv oc ot hd =>
      obtain ⟨rfl, rfl⟩ := hd
      exact h4.held _ _ _ _ (hh _) l hl
    | user d g' hd hm => exact h4.held _ _ _ _ (.user d g' hd hm) l hl
  | deliver _ _ c g t b hrc hp hm =>
    have hh : ∀ G, HeldAt s G .recv (G.know .receiver) (some c) (some t) := fun G =>
      .recv _ _ (by rw [hrc]; exact ⟨rfl, rfl⟩)
    have h1 := HInv.accessCall h hi (fun _ h => h) (.inr rfl) rfl (hh G) (.call c) (.inl rfl) false
    obtain ⟨e1, e2⟩ := h1.recv (.inr ⟨c, t, b, hrc⟩)
    have h2 := h1.accessRep .receiver e2 e1
    exact hok_deliver (G2 := (G.access .receiver (.call c) false).access .receiver (.rep G.recvId) false) h2 hrc hm
  | retag _ _ t hrc hlen =>
    refine ⟨?_, h.idle, h.fresh, h.reader, fun hr => by simp at hr, h.done, h.free, h.maker⟩
    intro p P oc ot hh l hl
    cases hh with
    | pool t' ht' =>
      by_cases e : t' = t
      · subst e
        simp only [if_true]
        exact h.held _ _ _ _ (.recv none (some t') (by rw [hrc]; exact ⟨rfl, rfl⟩)) l hl
      · simp only [e, if_false]
        exact h.held _ _ _ _ (.pool t' (by simpa [e] using ht')) l hl
    | queue d hd => exact h.held _ _ _ _ (.queue d hd) l hl
    | sender oc ot hd => exact h.held _ _ _ _ (.sender oc ot hd) l hl
    | wire z hz => exact h.held _ _ _ _ (.wire z hz) l hl
    | net r' hr => exact h.held _ _ _ _ (.net r' hr) l hl
    | reader r' hr => exact h.held _ _ _ _ (.reader r' hr) l hl
    | recv oc ot hd => exact hd.elim
    | user d g' hd hm => exact h.held _ _ _ _ (.user d g' hd hm) l hl
  | decode _ _ c g b hd hm =>
    obtain ⟨e1, e2⟩ := h.done c g b hd hm
    exact HInv.accessRep h (.user g) e2 e1
  | getFID _ _ g => exact HInv.accessPlain h (.user g) (.inl rfl) true
  | string _ _ g => exact HInv.accessPlain h (.user g) (.inr rfl) false
/-! ### the executions -/

theorem race_base {l : Label} {x y : State × Ghost} (h : RStep l x y) : Step true l x.1 y.1 ∨ y.1 = x.1 := by
  cases h with
  | call s G g c m h1 h2 => exact .inl (.call s c m h1)
  | getTag s G g t ts h1 => exact .inl (.getTag s t ts h1)
  | enqueue s G a b c g h1 h2 h3 => exact .inl (.enqueue s a b c h1 h2)
  | takeReq s G c cs h1 h2 => exact .inl (.takeReq s c cs h1 h2)
  | takeTag s G c t ts h1 h2 => exact .inl (.takeTag s c t ts h1 h2)
  | putTag s G c t h1 => exact .inl (.putTag s c t h1)
  | store s G c t h1 => exact .inl (.store s c t h1)
  | write s G c t h1 => exact .inl (.write s c t h1)
  | reply s G x y c q p h1 h2 h3 h4 => exact .inl (.reply s x y c q p h1 h2 h3 h4)
  | junk s G p h1 h2 => exact .inl (.junk s p h1 h2)
  | close s G => exact .inl (.close s)
  | read s G r rs h1 h2 => exact .inl (.read s r rs h1 h2)
  | readEOF s G h1 h2 h3 => exact .inl (.readEOF s h1 h2 h3)
  | handOver s G r h1 h2 => exact .inl (.handOver s r h1 h2)
  | handOverNil s G h1 h2 => exact .inl (.handOverNil s h1 h2)
  | lookup s G r h1 => exact .inl (.lookup s r h1)
  | deliver s G c g t b h1 h2 h3 => exact .inl (.deliver s c t b h1 h2)
  | retag s G t h1 h2 => exact .inl (.retag s t h1 h2)
  | decode => exact .inr rfl
  | getFID => exact .inr rfl
  | string => exact .inr rfl

/-- The record does not change what the client does: its executions are those of `Exec`. -/
theorem race_exec {L : Label → Prop} {x y : State × Ghost} (h : RExec L x y) : Exec true L x.1 y.1 := by
  induction h with
  | refl => exact .refl _
  | step y z l h hl ha hst ih =>
    rcases race_base hst with h1 | h1
    · exact .step _ _ _ l ih hl ha h1
    · rw [h1]; exact ih

structure LiftInv (s : State) (G : Ghost) : Prop where
  made : ∀ c, s.phase c ≠ .idle → G.maker c = some c
  none : ∀ c, s.phase c = .idle → G.maker c = none
  self : ∀ c g, G.maker c = some g → g = c
  sending : ∀ c ∈ s.sending, s.phase c ≠ .idle

theorem upd_ne_idle {f : Nat → Phase} {c d : Nat} {p : Phase} (hp : p ≠ .idle) (h : f d ≠ .idle) : upd f c p d ≠ .idle := by
  by_cases e : d = c
  · subst e; rw [upd_same]; exact hp
  · rw [upd_other _ _ e]; exact h

theorem LiftInv.upd {s s' : State} {G G' : Ghost} (h : LiftInv s G) (hm : G'.maker = G.maker) {c : Nat} {p : Phase}
    (hp : p ≠ .idle) (hc : s.phase c ≠ .idle) (hph : s'.phase = Client.upd s.phase c p)
    (hs : ∀ d ∈ s'.sending, d ∈ s.sending) : LiftInv s' G' := by
  refine ⟨?_, ?_, ?_, ?_⟩
  · intro d hd
    rw [hm]
    by_cases e : d = c
    · subst e; exact h.made _ hc
    · rw [hph, upd_other _ _ e] at hd; exact h.made d hd
  · intro d hd
    rw [hm]
    by_cases e : d = c
    · subst e; rw [hph, upd_same] at hd; exact absurd hd hp
    · rw [hph, upd_other _ _ e] at hd; exact h.none d hd
  · rw [hm]; exact h.self
  · intro d hd
    rw [hph]
    exact upd_ne_idle hp (h.sending d (hs d hd))

/-- Every execution has a record: with a goroutine of its own for every call. -/
theorem race_lift {L : Label → Prop} {s : State} (h : Exec true L init s) : ∃ G, RExec L (init, {}) (s, G) := by
  suffices ∀ s0 s, Exec true L s0 s → (∀ c, s0.phase c = .idle) → s0.sending = [] → s0.recv = .idle →
      ∃ G, RExec L (s0, {}) (s, G) ∧ LiftInv s G by
    obtain ⟨G, h1, -⟩ := this init s h (fun _ => rfl) rfl rfl
    exact ⟨G, h1⟩
  intro s0 s h hp0 hs0 hr0
  induction h with
  | refl =>
    exact ⟨{}, .refl _, fun c hc => absurd (hp0 c) hc, fun _ _ => rfl, fun c g e => by simp at e, fun c hc => by simp [hs0] at hc⟩
  | step s1 s2 l h hl ha hst ih =>
    obtain ⟨G, hG, hi⟩ := ih
    have ex : ∀ {G'}, RStep l (s1, G) (s2, G') → RExec L (s0, {}) (s2, G') := fun h => .step _ _ _ l hG hl ha h
    have same : ∀ {G'}, RStep l (s1, G) (s2, G') → G'.maker = G.maker → s2.phase = s1.phase → s2.sending = s1.sending →
        ∃ G, RExec L (s0, {}) (s2, G) ∧ LiftInv s2 G := fun h e1 e2 e3 =>
      ⟨_, ex h, by rw [e1, e2]; exact hi.made, by rw [e1, e2]; exact hi.none, by rw [e1]; exact hi.self, by rw [e2, e3]; exact hi.sending⟩
    cases hst with
    | call _ c m h1 =>
      refine ⟨_, ex (.call s1 G c c m h1 fun d hd => ?_), ?_, ?_, ?_, ?_⟩
      · have := hi.self d c hd
        subst this
        rw [hi.none c h1] at hd
        simp at hd
      · intro d hd
        by_cases e : d = c
        · subst e; exact upd_same ..
        · simp only [upd_other _ _ e] at hd ⊢; exact hi.made d hd
      · intro d hd
        by_cases e : d = c
        · subst e; simp [upd_same] at hd
        · simp only [upd_other _ _ e] at hd ⊢; exact hi.none d hd
      · intro d g hd
        by_cases e : d = c
        · subst e; simp only [upd_same, Option.some.injEq] at hd; exact hd.symm
        · simp only [upd_other _ _ e] at hd; exact hi.self d g hd
      · intro d hd
        by_cases e : d = c
        · subst e; simp [upd_same]
        · simp only [upd_other _ _ e]
          simp only [List.mem_cons, e, false_or] at hd
          exact hi.sending d hd
    | getTag _ t ts h1 => exact same (.getTag s1 G 0 t ts h1) rfl rfl rfl
    | enqueue _ a b c h1 h2 =>
      have hc : s1.phase c ≠ .idle := hi.sending c (by rw [h1]; simp)
      refine ⟨_, ex (.enqueue s1 G a b c c h1 h2 (hi.made c hc)), hi.upd rfl (p := .waiting) (by simp) hc rfl fun d hd => ?_⟩
      rw [h1]
      simp only [List.mem_append, List.mem_cons] at hd ⊢
      exact hd.elim .inl fun h => .inr (.inr h)
    | takeReq _ c cs h1 h2 => exact same (.takeReq s1 G c cs h1 h2) rfl rfl rfl
    | takeTag _ c t ts h1 h2 => exact same (.takeTag s1 G c t ts h1 h2) rfl rfl rfl
    | putTag _ c t h1 => exact same (.putTag s1 G c t h1) rfl rfl rfl
    | store _ c t h1 => exact same (.store s1 G c t h1) rfl rfl rfl
    | write _ c t h1 => exact same (.write s1 G c t h1) rfl rfl rfl
    | reply _ x y c q p h1 h2 h3 h4 => exact same (.reply s1 G x y c q p h1 h2 h3 h4) rfl rfl rfl
    | junk _ p h1 h2 => exact same (.junk s1 G p h1 h2) rfl rfl rfl
    | close => exact same (.close s1 G) rfl rfl rfl
    | read _ r rs h1 h2 => exact same (.read s1 G r rs h1 h2) rfl rfl rfl
    | readEOF _ h1 h2 h3 => exact same (.readEOF s1 G h1 h2 h3) rfl rfl rfl
    | handOver _ r h1 h2 => exact same (.handOver s1 G r h1 h2) rfl rfl rfl
    | handOverNil _ h1 h2 => exact same (.handOverNil s1 G h1 h2) rfl rfl rfl
    | lookup _ r h1 =>
      refine same (.lookup s1 G r h1) ?_ rfl rfl
      simp only [Ghost.lookup]
      split
      · rfl
      · split <;> rfl
    | deliver _ c t b h1 h2 =>
      have hc : s1.phase c ≠ .idle := by simp [h2]
      exact ⟨_, ex (.deliver s1 G c c t b h1 h2 (hi.made c hc)), hi.upd rfl (p := .done b) (by simp) hc rfl fun d hd => hd⟩
    | retag _ t h1 h2 => exact same (.retag s1 G t h1 h2) rfl rfl rfl

theorem hok_init : HOk init {} where
  held := fun _ _ _ _ _ _ _ i a h => by simp at h
  idle := fun _ _ _ _ i a h => by simp at h
  fresh := fun _ _ i a h => by simp at h
  reader := fun r h => by simp [init] at h
  recv := fun h => by simp [init] at h
  done := fun c g b h => by simp [init] at h
  free := fun i j a b _ h => by simp at h
  maker := fun c h => by simp [init] at h

theorem hok_exec {x y : State × Ghost} (hi : Inv x.1) (h : HOk x.1 x.2) (he : RExec Abiding x y) : HOk y.1 y.2 := by
  induction he with
  | refl => exact h
  | step y z l he hl ha hst ih => exact hok_step hl (inv_exec (fun _ h => h) hi (race_exec he)) ih hst

/-- **C118** for the table of the calls, the calls, the requests and the replies.  With a peer that only answers requests, each at
most once, and may close the connection, whatever the goroutines of the client and of its users do: of two accesses to the same
entry, call, request or reply, one of them a write, the first happened before the second in the sense of the Go memory model.

Missing: `c.FID` and `c.Dead`, for which this does not hold, see `C118_fid` and `C118_dead`; and other peers, see
`C118_counterexample`. -/
theorem C118_partial {s : State} {G : Ghost} (he : RExec Abiding (init, {}) (s, G)) :
    RaceFree G.log fun l => l ≠ .fid ∧ l ≠ .dead :=
  (hok_exec (x := (init, {})) inv_init hok_init he).free

/-! ### a program with one goroutine -/

structure OwnAcc (G : Ghost) : Prop where
  known : ∀ (i : Nat) (a : Access), G.log[i]? = some a → G.know a.who i
  past : ∀ (i j : Nat) (a b : Access), i < j → G.log[i]? = some a → G.log[j]? = some b → a.who = b.who → b.past i
  fid : ∀ a ∈ G.log, a.loc = .fid → ∃ g, a.who = .user g
  dead : ∀ a ∈ G.log, a.loc = .dead → a.who = .reader ∨ ∃ g, a.who = .user g

theorem OwnAcc.access {G : Ghost} (h : OwnAcc G) (g : Gor) (l : Loc) (w : Bool) (h1 : l = .fid → ∃ n, g = .user n)
    (h2 : l = .dead → g = .reader ∨ ∃ n, g = .user n) : OwnAcc (G.access g l w) := by
  refine ⟨?_, ?_, ?_, ?_⟩
  · intro i a ha
    rcases log_access ha with ha | ⟨rfl, rfl⟩
    · exact know_access (h.known i a ha)
    · exact know_access_new ..
  · intro i j a b hij ha hb hw
    rcases log_access hb with hb | ⟨rfl, rfl⟩
    · rcases log_access ha with ha | ⟨rfl, -⟩
      · exact h.past i j a b hij ha hb hw
      · have : j < G.log.length := by
          rcases Nat.lt_or_ge j G.log.length with h' | h'
          · exact h'
          · rw [List.getElem?_eq_none h'] at hb; simp at hb
        omega
    · rcases log_access ha with ha | ⟨rfl, -⟩
      · simp only at hw ⊢
        exact hw ▸ h.known i a ha
      · omega
  · intro a ha hl
    simp only [Ghost.access, List.mem_append, List.mem_cons, List.not_mem_nil, or_false] at ha
    rcases ha with ha | rfl
    · exact h.fid a ha hl
    · exact h1 hl
  · intro a ha hl
    simp only [Ghost.access, List.mem_append, List.mem_cons, List.not_mem_nil, or_false] at ha
    rcases ha with ha | rfl
    · exact h.dead a ha hl
    · exact h2 hl

theorem OwnAcc.learn {G : Ghost} (h : OwnAcc G) (g : Gor) (Q : Past) : OwnAcc (G.learn g Q) :=
  ⟨fun i a ha => know_learn (h.known i a ha), h.past, h.fid, h.dead⟩

theorem ownAcc_step {l : Label} {x y : State × Ghost} (hs : RStep l x y) (h : OwnAcc x.2) : OwnAcc y.2 := by
  cases hs with
  | call s G g c m h1 h2 =>
    have := ((h.access (.user g) .fid false (fun _ => ⟨g, rfl⟩) (fun e => by simp at e)).access (.user g) (.req c) true
      (fun e => by simp at e) (fun e => by simp at e)).access (.user g) (.call c) true (fun e => by simp at e) (fun e => by simp at e)
    exact ⟨this.known, this.past, this.fid, this.dead⟩
  | getTag s G g t ts h1 => exact h.learn _ _
  | enqueue s G a b c g h1 h2 h3 => exact ⟨h.known, h.past, h.fid, h.dead⟩
  | takeReq s G c cs h1 h2 => exact h.learn _ _
  | takeTag s G c t ts h1 h2 => exact h.learn _ _
  | putTag s G c t h1 =>
    exact (h.access _ _ _ (fun e => by simp at e) (fun e => by simp at e)).access _ _ _ (fun e => by simp at e) (fun e => by simp at e)
  | store s G c t h1 => exact h.access _ _ _ (fun e => by simp at e) (fun e => by simp at e)
  | write s G c t h1 =>
    have := (h.access .sender (.call c) false (fun e => by simp at e) (fun e => by simp at e)).access .sender (.req c) false
      (fun e => by simp at e) (fun e => by simp at e)
    exact ⟨this.known, this.past, this.fid, this.dead⟩
  | reply s G x y c q p h1 h2 h3 h4 => exact h
  | junk s G p h1 h2 => exact h
  | close s G => exact h
  | read s G r rs h1 h2 =>
    have := ((h.access .reader .dead false (fun e => by simp at e) (fun e => .inl rfl)).learn .reader (G.answer r)).access .reader
      (.rep G.nread) true (fun e => by simp at e) (fun e => by simp at e)
    exact ⟨this.known, this.past, this.fid, this.dead⟩
  | readEOF s G h1 h2 h3 =>
    exact (h.access _ _ _ (fun e => by simp at e) (fun e => .inl rfl)).access _ _ _ (fun e => by simp at e) (fun e => .inl rfl)
  | handOver s G r h1 h2 =>
    have := h.learn .receiver (G.know .reader)
    exact ⟨this.known, this.past, this.fid, this.dead⟩
  | handOverNil s G h1 h2 => exact h
  | lookup s G r h1 =>
    have e1 := OwnAcc.access (G := G) h .receiver (.rep G.recvId) false (fun e => by simp at e) (fun e => by simp at e)
    have e2 := e1.access .receiver (.slot ((pktTag r.bytes).toNat - 1)) false (fun e => by simp at e) (fun e => by simp at e)
    simp only [Ghost.lookup]
    split
    · exact e1
    · split
      · exact e2
      · exact (e2.access _ _ _ (fun e => by simp at e) (fun e => by simp at e)).access _ _ _ (fun e => by simp at e) (fun e => by simp at e)
  | deliver s G c g t b h1 h2 h3 =>
    have := ((h.access .receiver (.call c) false (fun e => by simp at e) (fun e => by simp at e)).access .receiver (.rep G.recvId) false
      (fun e => by simp at e) (fun e => by simp at e)).learn (.user g)
        (((G.access .receiver (.call c) false).access .receiver (.rep G.recvId) false).know .receiver)
    exact ⟨this.known, this.past, this.fid, this.dead⟩
  | retag s G t h1 h2 => exact ⟨h.known, h.past, h.fid, h.dead⟩
  | decode s G c g b h1 h2 => exact h.access _ _ _ (fun e => by simp at e) (fun e => by simp at e)
  | getFID s G g => exact h.access _ _ _ (fun _ => ⟨g, rfl⟩) (fun e => by simp at e)
  | string s G g => exact h.access _ _ _ (fun e => by simp at e) (fun _ => .inr ⟨g, rfl⟩)

theorem ownAcc_exec {L : Label → Prop} {x y : State × Ghost} (he : RExec L x y) (h : OwnAcc x.2) : OwnAcc y.2 := by
  induction he with
  | refl => exact h
  | step y z l he hl ha hst ih => exact ownAcc_step hst ih

theorem ownAcc_init : OwnAcc {} :=
  ⟨fun i a h => by simp at h, fun i j a b _ h => by simp at h, fun a h => by simp at h, fun a h => by simp at h⟩

/-- The record says at least what the order within a goroutine says: the earlier accesses of a goroutine happened before its later
ones, whatever the peer does. -/
theorem C118_order {L : Label → Prop} {s : State} {G : Ghost} (he : RExec L (init, {}) (s, G)) (i j : Nat) (a b : Access)
    (hij : i < j) (ha : G.log[i]? = some a) (hb : G.log[j]? = some b) (hw : a.who = b.who) : b.past i :=
  (ownAcc_exec he ownAcc_init).past i j a b hij ha hb hw

/-- **C118** for a program with one goroutine that uses the client and does not print it: there are no races at all, neither on
`c.FID` nor on `c.Dead`. -/
theorem C118_alone {s : State} {G : Ghost} (he : RExec Abiding (init, {}) (s, G)) (g : Nat)
    (hg : ∀ a ∈ G.log, ∀ g', a.who = .user g' → g' = g ∧ a.loc ≠ .dead) : RaceFree G.log fun _ => True := by
  intro i j a b hij ha hb hl _ hw
  have ho := ownAcc_exec he ownAcc_init
  have hma := List.mem_of_getElem? ha
  have hmb := List.mem_of_getElem? hb
  by_cases hf : a.loc = .fid
  · refine ho.past i j a b hij ha hb ?_
    obtain ⟨g1, e1⟩ := ho.fid a hma hf
    obtain ⟨g2, e2⟩ := ho.fid b hmb (hl ▸ hf)
    rw [e1, e2, (hg a hma g1 e1).1, (hg b hmb g2 e2).1]
  · by_cases hd : a.loc = .dead
    · refine ho.past i j a b hij ha hb ?_
      rcases ho.dead a hma hd with e1 | ⟨g1, e1⟩
      · rcases ho.dead b hmb (hl ▸ hd) with e2 | ⟨g2, e2⟩
        · rw [e1, e2]
        · exact absurd (hl ▸ hd) (hg b hmb g2 e2).2
      · exact absurd hd (hg a hma g1 e1).2
    · exact C118_partial he i j a b hij ha hb hl ⟨hf, hd⟩ hw

/-! ### where it does not hold -/

/-- **C118** does not hold for `c.FID`: one goroutine calls `GetFID`, another one makes a call.  The addition is atomic; the read
for the tracer is not. -/
theorem C118_fid : ∃ s G, RExec Abiding (init, {}) (s, G) ∧ ¬ RaceFree G.log fun l => l = .fid := by
  have e1 := RExec.step (L := Abiding) (init, {}) _ _ .client (.refl _) trivial (by simp [Alive, init]) (.getFID init {} 0)
  have e2 := RExec.step _ _ _ .call e1 trivial (by simp [Alive, init])
    (.call init _ 1 0 (.flush {}) rfl fun d h => by simp [Ghost.access] at h)
  refine ⟨_, _, e2, fun h => ?_⟩
  have := h 0 1 ⟨.user 0, .fid, true, fun _ => False⟩ ⟨.user 1, .fid, false, fun _ => False⟩ (by omega) rfl rfl rfl rfl (.inl rfl)
  exact this

/-- **C118** does not hold for `c.Dead`: a goroutine prints the client and the connection ends. -/
theorem C118_dead : ∃ s G, RExec Abiding (init, {}) (s, G) ∧ ¬ RaceFree G.log fun l => l = .dead := by
  have e1 := RExec.step (L := Abiding) (init, {}) _ _ .client (.refl _) trivial (by simp [Alive, init]) (.string init {} 0)
  have e2 := RExec.step _ _ _ .close e1 trivial (by simp [Alive, init]) (.close init _)
  have e3 := RExec.step _ _ _ .client e2 trivial (by simp [Alive, init]) (.readEOF _ _ rfl rfl rfl)
  refine ⟨_, _, e3, fun h => ?_⟩
  have := h 0 2 ⟨.user 0, .dead, false, fun _ => False⟩ ⟨.reader, .dead, true, fun i => False ∨ i = 1⟩ (by omega) rfl rfl rfl rfl (.inr rfl)
  simp at this

theorem race_junk (s : State) (m : TMsg) (t : Tag) (ts : List Tag) (ht : Legal t) (h1 : s.phase 0 = .idle) (h2 : s.sending = [])
    (h3 : s.fromClient = []) (h4 : s.sender = .idle) (h5 : s.tags = t :: ts) (h6 : s.reader = .idle) (h7 : s.recv = .idle)
    (h8 : s.fromNet = []) (h9 : s.closed = false) :
    ∃ s' G, RExec (fun _ => True) (s, {}) (s', G) ∧ ¬ RaceFree G.log fun l => ∃ i, l = .slot i := by
  have ha : Alive s := by simp [Alive, h7]
  have e1 := RExec.step (L := fun _ => True) (s, {}) _ _ .call (.refl _) trivial ha (.call s {} 0 0 m h1 fun d h => by simp at h)
  have e2 := RExec.step _ _ _ .client e1 trivial ha (.enqueue _ _ [] [] 0 0 (by simp [h2]) (by simp [h3, NumTags]) rfl)
  have e3 := RExec.step _ _ _ .client e2 trivial ha (.takeReq _ _ 0 [] h4 (by simp [h3]))
  have e4 := RExec.step _ _ _ .client e3 trivial ha (.takeTag _ _ 0 t ts rfl h5)
  have e5 := RExec.step _ _ _ .client e4 trivial ha (.putTag _ _ 0 t rfl)
  have e6 := RExec.step _ _ _ .junk e5 trivial ha (.junk _ _ (m.packet t) (packetT_length m t) h9)
  have e7 := RExec.step _ _ _ .client e6 trivial ha (.read _ _ ⟨none, m.packet t⟩ [] h6 (by simp [h8]))
  have e8 := RExec.step _ _ _ .client e7 trivial ha (.handOver _ _ ⟨none, m.packet t⟩ rfl h7)
  have e9 := RExec.step _ _ _ .client e8 trivial (by simp [Alive]) (.store _ _ 0 t rfl)
  have e10 := RExec.step _ _ _ .client e9 trivial (by simp [Alive]) (.lookup _ _ ⟨none, m.packet t⟩ rfl)
  refine ⟨_, _, e10, fun h => ?_⟩
  have hn : ¬ (t < 1 ∨ t.toNat - 1 ≥ NumTags) := by
    obtain ⟨l1, l2⟩ := ht
    rw [UInt16.lt_iff_toNat_lt]
    simp only [NumTags]
    rintro (h3 | h3)
    · have : (1 : UInt16).toNat = 1 := rfl
      omega
    · omega
  simp only [Ghost.lookup, pktTag_packet, if_neg hn, upd_same] at h
  have := h 7 9 ⟨.sender, .slot (t.toNat - 1), true, _⟩ ⟨.receiver, .slot (t.toNat - 1), false, _⟩ (by omega) rfl rfl rfl ⟨_, rfl⟩ (.inl rfl)
  simp [Ghost.access, Ghost.learn, Ghost.answer] at this

/-- **C118** does not hold with an arbitrary peer: a packet that comes before the request with its tag is written makes the receiver
read the entry that the sender writes, and nothing orders the two. -/
theorem C118_counterexample : ∃ s G, RExec (fun _ => True) (init, {}) (s, G) ∧ ¬ RaceFree G.log fun l => ∃ i, l = .slot i := by
  obtain ⟨ts, hts⟩ : ∃ ts, init.tags = 1 :: ts := by
    unfold init
    dsimp only
    exact first_tag _ (by simp [NOTAG])
  exact race_junk init (.flush {}) 1 ts (by decide) rfl rfl rfl rfl hts rfl rfl rfl rfl
/-- C118: a whole call, made by one goroutine.  The sender writes to the request that the caller has made, the receiver reads the
entry that the sender has written, the caller reads the reply that `readNetPackets` has written. -/
example : ∃ s G, RExec Abiding (init, {}) (s, G) ∧ (∀ a ∈ G.log, ∀ g', a.who = .user g' → g' = 0 ∧ a.loc ≠ .dead) ∧
    (G.log.map fun a => (a.who, a.loc, a.write)) =
      [(.user 0, .fid, false), (.user 0, .req 0, true), (.user 0, .call 0, true), (.sender, .call 0, false), (.sender, .req 0, true),
       (.sender, .slot 0, true), (.sender, .call 0, false), (.sender, .req 0, false), (.reader, .dead, false), (.reader, .rep 0, true),
       (.receiver, .rep 0, false), (.receiver, .slot 0, false), (.receiver, .call 0, false), (.receiver, .req 0, false),
       (.receiver, .call 0, false), (.receiver, .rep 0, false), (.user 0, .rep 0, false)] := by
  have key : ∀ (s : State) (m : TMsg) (t : Tag) (ts : List Tag), t = 1 → s.phase 0 = .idle → s.sending = [] → s.fromClient = [] →
      s.sender = .idle → s.tags = t :: ts → s.reader = .idle → s.recv = .idle → s.fromNet = [] → s.closed = false → s.wire = [] →
      (m.packet t).length = pktLen (m.packet t) → setTag (encodeT {} 0 m).bytes t = m.packet t →
      ∃ s' G, RExec Abiding (s, {}) (s', G) ∧ (∀ a ∈ G.log, ∀ g', a.who = .user g' → g' = 0 ∧ a.loc ≠ .dead) ∧
        (G.log.map fun a => (a.who, a.loc, a.write)) =
      [(.user 0, .fid, false), (.user 0, .req 0, true), (.user 0, .call 0, true), (.sender, .call 0, false), (.sender, .req 0, true),
       (.sender, .slot 0, true), (.sender, .call 0, false), (.sender, .req 0, false), (.reader, .dead, false), (.reader, .rep 0, true),
       (.receiver, .rep 0, false), (.receiver, .slot 0, false), (.receiver, .call 0, false), (.receiver, .req 0, false),
       (.receiver, .call 0, false), (.receiver, .rep 0, false), (.user 0, .rep 0, false)] := by
    intro s m t ts ht h1 h2 h3 h4 h5 h6 h7 h8 h9 h10 hl he
    have hlk : ∀ rpc : Nat → Option Nat, Client.lookup true (upd rpc (t.toNat - 1) (some 0)) (m.packet t) = .found 0 t (m.packet t) := by
      intro rpc
      have := lookup_found (rpc := upd rpc (t.toNat - 1) (some 0)) (b := m.packet t) (c := 0)
        (by rw [pktTag_packet, ht]; decide) (by rw [pktTag_packet, upd_same])
      rw [this, pktTag_packet]
    have hgl : ∀ (G : Ghost) (rpc : Nat → Option Nat), G.lookup (upd rpc (t.toNat - 1) (some 0)) (m.packet t) =
        (((G.access .receiver (.rep G.recvId) false).access .receiver (.slot (t.toNat - 1)) false).access .receiver (.call 0) false).access
          .receiver (.req 0) false := by
      intro G rpc
      simp only [Ghost.lookup, pktTag_packet, upd_same]
      rw [if_neg (by rw [ht]; decide)]
    have ha : Alive s := by simp [Alive, h7]
    have e1 := RExec.step (L := Abiding) (s, {}) _ _ .call (.refl _) trivial ha (.call s {} 0 0 m h1 fun d h => by simp at h)
    have e2 := RExec.step _ _ _ .client e1 trivial ha (.enqueue _ _ [] [] 0 0 (by simp [h2]) (by simp [h3, NumTags]) rfl)
    have e3 := RExec.step _ _ _ .client e2 trivial ha (.takeReq _ _ 0 [] h4 (by simp [h3]))
    have e4 := RExec.step _ _ _ .client e3 trivial ha (.takeTag _ _ 0 t ts rfl h5)
    have e5 := RExec.step _ _ _ .client e4 trivial ha (.putTag _ _ 0 t rfl)
    have e6 := RExec.step _ _ _ .client e5 trivial ha (.store _ _ 0 t rfl)
    have e7 := RExec.step _ _ _ .client e6 trivial ha (.write _ _ 0 t rfl)
    have e8 := RExec.step _ _ _ .reply e7 trivial ha (.reply _ _ [] [] 0 (m.packet t) (m.packet t)
      (by simp only [h10, upd_same, he, List.nil_append]) hl rfl h9)
    have e9 := RExec.step _ _ _ .client e8 trivial ha (.read _ _ ⟨some 0, m.packet t⟩ [] h6 (by simp [h8]))
    have e10 := RExec.step _ _ _ .client e9 trivial ha (.handOver _ _ ⟨some 0, m.packet t⟩ rfl h7)
    have e11 := RExec.step _ _ _ .client e10 trivial (by simp [Alive]) (.lookup _ _ ⟨some 0, m.packet t⟩ rfl)
    have e12 := RExec.step _ _ _ .client e11 trivial (by simp [Alive, hlk]) (.deliver _ _ 0 0 t (m.packet t) (hlk _)
      (by simp [upd_same]) (by simp only [hgl]; rfl))
    have e13 := RExec.step _ _ _ .client e12 trivial (by simp [Alive]) (.decode _ _ 0 0 (m.packet t) (by simp [upd_same])
      (by simp only [hgl]; rfl))
    have e : t.toNat - 1 = 0 := by rw [ht]; rfl
    have hv : ∀ {L : List (Gor × Loc × Bool)}, (∀ x ∈ L, ∀ g', x.1 = .user g' → g' = 0 ∧ x.2.1 ≠ .dead) → ∀ {G : Ghost},
        (G.log.map fun a => (a.who, a.loc, a.write)) = L →
        (∀ a ∈ G.log, ∀ g', a.who = .user g' → g' = 0 ∧ a.loc ≠ .dead) ∧ (G.log.map fun a => (a.who, a.loc, a.write)) = L :=
      @fun L h1 G h2 => ⟨fun a ha => h1 _ (h2 ▸ List.mem_map_of_mem ha), h2⟩
    refine ⟨_, _, e13, hv ?_ ?_⟩
    · intro x hx g' hg
      simp only [List.mem_cons, List.not_mem_nil, or_false] at hx
      rcases hx with rfl | rfl | rfl | rfl | rfl | rfl | rfl | rfl | rfl | rfl | rfl | rfl | rfl | rfl | rfl | rfl | rfl <;>
        simp at hg ⊢ <;> exact hg.symm
    · clear e1 e2 e3 e4 e5 e6 e7 e8 e9 e10 e11 e12 e13
      have hg0 := hgl
      rw [e] at hg0
      simp [hg0, e, Ghost.access, Ghost.learn, upd_same]
  obtain ⟨ts, hts⟩ : ∃ ts, init.tags = 1 :: ts := by
    unfold init
    dsimp only
    exact first_tag _ (by simp [NOTAG])
  exact key init (.flush {}) 1 ts rfl rfl rfl rfl rfl hts rfl rfl rfl rfl rfl (by decide) (by decide)

end Ninep.Client
