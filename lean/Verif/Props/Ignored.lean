import Verif.Props.UfsMore
import Verif.Props.StatCut
/-
Which fields of the requests the file server does not look at (C114).

version(5) says that no message longer than the size agreed on is sent, attach(5) that the user named is the one
whose permissions count, flush(5) names the request to abort, and stat(5) allows a wstat only if every change that it
asks for can be made.  This file server does not look at the message size, the user name and the tag to flush, and of
the stat record of a wstat neither at the type, the device, the qid and the name of the last modifier nor at the upper
bits of the mode.
-/

namespace Ninep.Ufs
open Spec

variable {ω H : Type} {host : Host ω H} {user rootPath : GoString}

/-- Two stat records that ask for the same: they may differ in type, device, qid, last modifier, and in the mode in
all but the permission bits, unless one says not to touch the mode. -/
structure SameWish (d d' : Dir) : Prop where
  name : d'.Name = d.Name
  length : d'.Length = d.Length
  atime : d'.Atime = d.Atime
  mtime : d'.Mtime = d.Mtime
  owner : d'.User = d.User
  group : d'.Group = d.Group
  keeps : d'.Mode.toNat = 2 ^ 32 - 1 ↔ d.Mode.toNat = 2 ^ 32 - 1
  perms : d'.Mode.toNat % 512 = d.Mode.toNat % 512

/-- Two requests that differ in nothing the file server looks at. -/
inductive Alike : TMsg → TMsg → Prop
  | same (m : TMsg) : Alike m m
  | version (a b : MaxSize) (v : GoString) : Alike (.version ⟨a, v⟩) (.version ⟨b, v⟩)
  | attach (fid afid : FID) (u u' aname : GoString) : Alike (.attach ⟨fid, afid, u, aname⟩) (.attach ⟨fid, afid, u', aname⟩)
  | flush (o o' : Tag) : Alike (.flush ⟨o⟩) (.flush ⟨o'⟩)
  | wstat (fid : FID) (d d' : Dir) (hd : DirFits d) (hd' : DirFits d') (h : SameWish d d') :
      Alike (.wstat ⟨fid, Spec.dir d⟩) (.wstat ⟨fid, Spec.dir d'⟩)

/-- Two replies that are the same but for the size that a version reply repeats. -/
inductive Echo : RMsg → RMsg → Prop
  | same (r : RMsg) : Echo r r
  | version (a b : MaxSize) (v : GoString) : Echo (.version ⟨a, v⟩) (.version ⟨b, v⟩)

/-- Two outcomes of a request with the same effect and the same reply but for the size of a version reply. -/
inductive SameOutcome {σ : Type} : NRes σ RMsg → NRes σ RMsg → Prop
  | panic : SameOutcome .panic .panic
  | err (s : σ) (e : GoString) : SameOutcome (.err s e) (.err s e)
  | ok (s : σ) (r r' : RMsg) : Echo r r' → SameOutcome (.ok s r) (.ok s r')

theorem SameOutcome.refl {σ : Type} (x : NRes σ RMsg) : SameOutcome x x := by
  cases x with
  | panic => exact .panic
  | err s e => exact .err s e
  | ok s r => exact .ok s r r (.same r)

theorem and511 (m : UInt32) : (m &&& 0o777).toNat = m.toNat % 512 := by
  rw [UInt32.toNat_and]
  exact Nat.and_two_pow_sub_one_eq_mod m.toNat 9

theorem rwstat_wish (fid : FID) (d d' : Dir) (hd : DirFits d) (hd' : DirFits d') (h : SameWish d d') (s : State ω H) :
    rwstat host fid (Spec.dir d') s = rwstat host fid (Spec.dir d) s := by
  have e : ∀ x, DirFits x → ∃ t b, unmarshaldir (Buffer.ofBytes (Spec.dir x)) = .done x t none b := fun x hx =>
    (C97_accepted _ x).2 ⟨hx, .inl ⟨[], by simp [Spec.dir, le]⟩⟩
  obtain ⟨t, b, e1⟩ := e d hd
  obtain ⟨t', b', e2⟩ := e d' hd'
  have hk : d'.Mode = 0xFFFFFFFF ↔ d.Mode = 0xFFFFFFFF := by
    have := h.keeps
    rw [← UInt32.toNat_inj, ← UInt32.toNat_inj]
    exact this
  have hp : d'.Mode &&& 0o777 = d.Mode &&& 0o777 := by
    rw [← UInt32.toNat_inj, and511, and511, h.perms]
  unfold rwstat
  cases s.files fid with
  | none => rfl
  | some f =>
    simp only [e1, e2]
    unfold wstatPath wstatMode wstatUser wstatName wstatLength wstatTimes wstatSync wstatChanges
    simp only [hp, hk, ne_eq, h.name, h.length, h.atime, h.mtime, h.owner, h.group]

/-- **C114, partial** Requests that differ in nothing but the size of a version, the user name of an attach, the tag of
a flush and, in a wstat, type, device, qid, last modifier and the upper bits of the mode, do the same, whatever the
host is and whatever happened before; the replies are the same, but for the size, which is repeated. -/
theorem C114_call_partial (m m' : TMsg) (h : Alike m m') (s : State ω H) :
    SameOutcome (call (ufs host user) m s) (call (ufs host user) m' s) := by
  cases h with
  | same => exact .refl _
  | version a b v =>
    simp only [call, ufs, rversion]
    by_cases hv : v ≠ lit "9P2000"
    · rw [if_pos hv, if_pos hv]
      exact .err _ _
    · rw [if_neg hv, if_neg hv]
      exact .ok _ _ _ (.version a b v)
  | attach => exact .refl _
  | flush => exact .refl _
  | wstat fid d d' hd hd' hw =>
    simp only [call, ufs]
    rw [rwstat_wish fid d d' hd hd' hw]
    exact .refl _

/-- Pairwise related. -/
inductive Pairs {α β : Type} (R : α → β → Prop) : List α → List β → Prop
  | nil : Pairs R [] []
  | cons {a b as bs} : R a b → Pairs R as bs → Pairs R (a :: as) (b :: bs)

/-- two packets that carry replies that are the same but for the size of a version reply -/
def SamePacket (x y : Bytes) : Prop := ∃ t r r', Echo r r' ∧ x = r.packet t ∧ y = r'.packet t

theorem Alike.ty {m m' : TMsg} (h : Alike m m') : m'.ty = m.ty := by cases h <;> simp only [TMsg.ty, TMsg.type]

theorem process_alike (spare spare' : Nat → Bytes) (wfail : Nat → Bool) (k : Nat) (e : Stop)
    (reqs reqs' : List (Tag × TMsg)) (h : Pairs (fun r r' => r'.1 = r.1 ∧ Alike r.2 r'.2) reqs reqs')
    (hf : ∀ r ∈ reqs, r.2.Fits) (hf' : ∀ r ∈ reqs', r.2.Fits) (s : Server (State ω H))
    (hv : s.Versioned = true ∨ ∀ r ∈ reqs.head?, ∃ p, r.2 = .version p) :
    let r := process (ufs host user) spare wfail k s (reqs.map fun r => (r.2.ty, r.2.body r.1)) e
    let r' := process (ufs host user) spare' wfail k s (reqs'.map fun r => (r.2.ty, r.2.body r.1)) e
    Pairs SamePacket r.out r'.out ∧ r'.srv = r.srv ∧ r'.stop = r.stop ∧ r'.execd.length = r.execd.length := by
  induction h generalizing k s with
  | nil => exact ⟨.nil, rfl, rfl, rfl⟩
  | @cons a b as bs hab hrest ih =>
    obtain ⟨t, m⟩ := a
    obtain ⟨t', m'⟩ := b
    obtain ⟨rfl, hab⟩ := hab
    dsimp only at hab
    have hv' : s.Versioned = true ∨ m.ty = MT.Tversion := by
      rcases hv with hv | hv
      · exact .inl hv
      · obtain ⟨p, hp⟩ := hv (t', m) (by simp)
        exact .inr (by rw [show m = .version p from hp]; rfl)
    have hd := dispatch_request (ufs host user) m s ⟨[], m.body t', spare k⟩ hv'
    rw [(lawsT m).fwd (hf (t', m) (by simp))] at hd
    have hd' := dispatch_request (ufs host user) m' s ⟨[], m'.body t', spare' k⟩ (by rw [hab.ty]; exact hv')
    rw [(lawsT m').fwd (hf' (t', m') (by simp))] at hd'
    have hs := C114_call_partial (host := host) (user := user) m m' hab s.ns
    unfold handle at hd hd'
    have key : ∀ x r r', Echo r r' →
        dispatch (ufs host user) s ⟨[], m.body t', spare k⟩ m.ty = .done ⟨x, true⟩ (encodeR ⟨[] ++ m.body t', [], spare k⟩ t' r) →
        dispatch (ufs host user) s ⟨[], m'.body t', spare' k⟩ m'.ty =
          .done ⟨x, true⟩ (encodeR ⟨[] ++ m'.body t', [], spare' k⟩ t' r') →
        let r := process (ufs host user) spare wfail k s (((t', m) :: as).map fun r => (r.2.ty, r.2.body r.1)) e
        let r' := process (ufs host user) spare' wfail k s (((t', m') :: bs).map fun r => (r.2.ty, r.2.body r.1)) e
        Pairs SamePacket r.out r'.out ∧ r'.srv = r.srv ∧ r'.stop = r.stop ∧ r'.execd.length = r.execd.length := by
      intro x r r' he h1 h2
      simp only [List.map_cons, process, h1, h2]
      cases wfail k with
      | true => exact ⟨.nil, rfl, rfl, rfl⟩
      | false =>
        have := ih (k + 1) (fun r hr => hf r (List.mem_cons_of_mem _ hr)) (fun r hr => hf' r (List.mem_cons_of_mem _ hr))
          ⟨x, true⟩ (.inl rfl)
        simp only [Bool.false_eq_true, if_false]
        refine ⟨.cons ⟨t', r, r', he, encodeR_bytes _ _ _, encodeR_bytes _ _ _⟩ this.1, this.2.1, this.2.2.1, ?_⟩
        simp [this.2.2.2]
    cases hc : call (ufs host user) m s.ns with
    | panic =>
      rw [hc] at hs
      generalize hc' : call (ufs host user) m' s.ns = c' at hs
      cases hs
      simp only [hc] at hd
      simp only [hc'] at hd'
      simp only [List.map_cons, process, hd, hd', List.length_singleton, and_true]
      exact .nil
    | ok x' r =>
      rw [hc] at hs
      generalize hc' : call (ufs host user) m' s.ns = c' at hs
      cases hs with
      | ok _ _ r' he =>
        simp only [hc] at hd
        simp only [hc'] at hd'
        exact key x' r r' he hd hd'
    | err x' er =>
      rw [hc] at hs
      generalize hc' : call (ufs host user) m' s.ns = c' at hs
      cases hs
      simp only [hc] at hd
      simp only [hc'] at hd'
      exact key x' _ _ (.same _) hd hd'

/-- **C114, partial** The same for all that is sent on a connection: two clients whose requests differ only in these
fields get the same replies (but for the size in a version reply), and the file server and the host are left in the same state, however the requests are cut
into segments, wherever the writing of replies fails, and whatever the state was.  In particular the size agreed on
has no effect on any later request or reply, and what is granted does not depend on the user. -/
theorem C114_connection_partial (spare spare' : Nat → Bytes) (wfail : Nat → Bool) (fin : StreamEnd)
    (reqs reqs' : List (Tag × TMsg)) (h : Pairs (fun r r' => r'.1 = r.1 ∧ Alike r.2 r'.2) reqs reqs')
    (hf : ∀ r ∈ reqs, r.2.Fits ∧ (r.2.packet r.1).length < 2 ^ 32)
    (hf' : ∀ r ∈ reqs', r.2.Fits ∧ (r.2.packet r.1).length < 2 ^ 32)
    (segs segs' : List Bytes) (ha : Aligned segs) (ha' : Aligned segs')
    (hs : segs.flatten = (reqs.map fun r => r.2.packet r.1).flatten)
    (hs' : segs'.flatten = (reqs'.map fun r => r.2.packet r.1).flatten)
    (k : Nat) (s : Server (State ω H)) (hv : s.Versioned = true ∨ ∀ r ∈ reqs.head?, ∃ p, r.2 = .version p) :
    let r := serve (ufs host user) spare wfail fin k s segs
    let r' := serve (ufs host user) spare' wfail fin k s segs'
    Pairs SamePacket r.out r'.out ∧ r'.srv = r.srv ∧ r'.stop = r.stop ∧ r'.execd.length = r.execd.length := by
  dsimp only
  rw [serve_eq, serve_eq, reads_aligned fin segs ha, reads_aligned fin segs' ha', hs, hs']
  have hr : ∀ l : List (Tag × TMsg), (∀ r ∈ l, (r.2.packet r.1).length < 2 ^ 32) →
      readable fin (l.map fun r => r.2.packet r.1).flatten = (l.map fun r => (r.2.ty, r.2.body r.1), .header) := by
    intro l hl
    unfold readable
    rw [frames_packets l hl]
    simp
  rw [hr reqs fun r h => (hf r h).2, hr reqs' fun r h => (hf' r h).2]
  exact process_alike spare spare' wfail k .header reqs reqs' h (fun r h => (hf r h).1) (fun r h => (hf' r h).1) s hv

namespace Mem

/-- the record of a wstat that asks for DMAPPEND with the permissions 0600, for another qid and another last modifier -/
def wishes : Dir where
  Typ := 1
  Dev := 2
  QID := ⟨64, 3, 4⟩
  Mode := 0x40000180
  Atime := 0xFFFFFFFF
  Mtime := 0xFFFFFFFF
  Length := 0xFFFFFFFFFFFFFFFF
  ModUser := [101, 118, 101]

/-- the same without the fields that are not looked at -/
def wishes' : Dir where
  Mode := 0x180
  Atime := 0xFFFFFFFF
  Mtime := 0xFFFFFFFF
  Length := 0xFFFFFFFFFFFFFFFF

deriving instance DecidableEq for Except

/-- what the file is like after the wstat -/
def after : Dir where
  QID := ⟨0, 1000000, 3⟩
  Mode := 0x180
  Atime := 1000
  Mtime := 1000
  Length := 4
  Name := [102]
  User := [103]
  Group := [103]

/-- C114: the hypotheses are met by requests that differ -/
example : Pairs (fun r r' => r'.1 = r.1 ∧ Alike r.2 r'.2)
    [((1 : Tag), .version ⟨12, lit "9P2000"⟩), (2, .attach ⟨0, NOFID, [101], []⟩), (3, walk1), (4, .wstat ⟨1, Spec.dir wishes⟩), (5, .flush ⟨4⟩)]
    [(1, .version ⟨8192, lit "9P2000"⟩), (2, .attach ⟨0, NOFID, [114], []⟩), (3, walk1), (4, .wstat ⟨1, Spec.dir wishes'⟩), (5, .flush ⟨1⟩)] := by
  refine .cons ⟨rfl, .version _ _ _⟩ (.cons ⟨rfl, .attach _ _ _ _ _⟩ (.cons ⟨rfl, .same _⟩ (.cons ⟨rfl, .wstat _ _ _ ?_ ?_ ?_⟩
    (.cons ⟨rfl, .flush _ _⟩ .nil))))
  · exact ⟨by decide, by decide, by decide, by decide⟩
  · exact ⟨by decide, by decide, by decide, by decide⟩
  · exact ⟨rfl, rfl, rfl, rfl, rfl, rfl, by decide, by decide⟩

/-- **C114 is false**: with the size 12 agreed on, an attach in a packet of 22 bytes, by whatever user, is carried out;
a wstat that asks for append-only, for another qid and for another last modifier succeeds, and the stat of the file
afterwards is that of a file with none of these. -/
theorem C114_counterexample (u : GoString) :
    ∃ s d, runAll [.version { TMsize := 12, TVersion := lit "9P2000" }, .attach ⟨0, NOFID, u, []⟩, walk1,
        .wstat ⟨1, Spec.dir wishes⟩, .stat ⟨1⟩] demo =
      ([some (.ok (.version { RMsize := 12, RVersion := lit "9P2000" })),
        some (.ok (.attach { QID := { Typ := 128, Version := 1000000, Path := 1 } })),
        some (.ok (.walk { QIDs := [{ Typ := 0, Version := 1000000, Path := 3 }] })),
        some (.ok (.wstat ⟨⟩)), some (.ok (.stat ⟨Spec.dir d⟩))], s) ∧
      12 < ((TMsg.attach ⟨0, NOFID, u, []⟩).packet 2).length ∧
      d.Mode = 0x180 ∧ d.QID = ⟨0, 1000000, 3⟩ ∧ d.ModUser = [] ∧ d.Typ = 0 ∧ d.Dev = 0 := by
  refine ⟨_, after, Prod.ext ?_ rfl, ?_, rfl, rfl, rfl, rfl, rfl⟩
  · have : runAll [.version { TMsize := 12, TVersion := lit "9P2000" }, .attach ⟨0, NOFID, u, []⟩, walk1,
        .wstat ⟨1, Spec.dir wishes⟩, .stat ⟨1⟩] demo = runAll [.version { TMsize := 12, TVersion := lit "9P2000" },
        .attach ⟨0, NOFID, [], []⟩, walk1, .wstat ⟨1, Spec.dir wishes⟩, .stat ⟨1⟩] demo := rfl
    rw [this]
    dsimp only
    decide +kernel
  · simp [TMsg.packet, Spec.packet, TMsg.body, TMsg.fields, str]
    omega

end Mem

end Ninep.Ufs
