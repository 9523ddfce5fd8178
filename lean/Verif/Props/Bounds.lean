import Verif.Props.Release
import Verif.Props.Own
import Verif.Lemmas.Safe
/-
However calls of goroutines that share a `FileServer` overlap, also on the same fid, and whatever races there are between them: all paths
that are given to the operating system are at or below the root, and so were those of all open files that are used.
-/

namespace Ninep.Ufs.Shared
open Spec

section
variable {ω H : Type} {user rootPath : GoString} {iounit : MaxSize} {host : Host ω H} {w0 : ω}

/-! ### The statement -/

/-- Names that do not lead up: no ".." in a walk or create, and a new name that is absolute and has none. -/
def Modest : TMsg → Prop
  | .walk q => ∀ n ∈ q.Paths, NoUp n
  | .create q => NoUp q.Name
  | .wstat q => ∀ d t b, unmarshaldir (Buffer.ofBytes q.B) = .done d t none b → d.Name = [] ∨ (d.Name.head? = some 47 ∧ NoUp d.Name)
  | _ => True

/-- The name stands for something other than the directory it is looked up in, if ".." cannot lead out of that. -/
def Names (n : GoString) : Prop := place [] (elems n) ≠ []

/-- As `Modest`, with relative new names, and without those that stand for the root itself. -/
def Deeper : TMsg → Prop
  | .attach q => Names q.Aname
  | .walk q => ∀ n ∈ q.Paths, NoUp n
  | .create q => NoUp q.Name
  | .wstat q => ∀ d t b, unmarshaldir (Buffer.ofBytes q.B) = .done d t none b → d.Name = [] ∨ (Names d.Name ∧ (d.Name.head? = some 47 → NoUp d.Name))
  | _ => True

/-- All calls of the host name paths with `P`, and work on files that calls before have opened, with such paths. -/
def Bounded (P : GoString → Prop) (ls : List (SLabel ω H)) : Prop :=
  ∀ l1 g e l2, ls = l1 ++ SLabel.call g e :: l2 →
    (∀ p ∈ e.1.paths, P p) ∧
    ∀ h, e.1.uses = some h → ∃ g' p flags perm, P p ∧ SLabel.call g' ⟨.openFile p flags perm, .ok h⟩ ∈ l1

/-! ### Programs -/

variable {P : GoString → Prop}

/-- the file has been opened -/
def Got (ls : List (SLabel ω H)) (h : H) : Prop := ∃ g e, SLabel.call g e ∈ ls ∧ Ev.gives e = some h

/-- the operation, of a goroutine that knows these addresses and these open files -/
def MOp.Fit (P : GoString → Prop) (A : Ptr → Prop) (B : H → Prop) : MOp H → Prop
  | .load p .name => A p
  | .store _ .name v => P v
  | .store _ .file v => ∀ h, v = some h → B h
  | .alloc f => P f.fullName ∧ ∀ h, f.file = some h → B h
  | .assign _ p => A p
  | _ => True

/-- what it may yield -/
def MOp.Tells (P : GoString → Prop) : (c : MOp H) → c.Ans → Prop
  | .load _ .name, n => P n
  | _, _ => True

/-- the address that it yields -/
def MOp.addr : (c : MOp H) → c.Ans → Option Ptr
  | .lookup _, r => r
  | .alloc _, p => some p
  | _, _ => none

/-- the open file that it yields -/
def MOp.open? : (c : MOp H) → c.Ans → Option H
  | .load _ .file, h => h
  | _, _ => none

/-- All names of a program have `P`, if those it loads have; it uses the addresses and open files it knows, and the result has `Q` with these. -/
def MProg.Kept (P : GoString → Prop) {α : Type} (Q : (Ptr → Prop) → (H → Prop) → α → Prop) : (Ptr → Prop) → (H → Prop) → MProg H α → Prop
  | A, B, .ret a => Q A B a
  | _, _, .panic => True
  | A, B, .op c k => c.Fit P A B ∧ ∀ a, c.Tells P a → (k a).Kept P Q (fun p => A p ∨ c.addr a = some p) (fun h => B h ∨ c.open? a = some h)
  | A, B, .host c k => (∀ p ∈ c.paths, P p) ∧ (∀ h, c.uses = some h → B h) ∧
      ∀ a, (k a).Kept P Q A (fun h => B h ∨ Ev.gives ⟨c, a⟩ = some h)

theorem MProg.Kept.bind {α β : Type} {Q : (Ptr → Prop) → (H → Prop) → α → Prop} {R : (Ptr → Prop) → (H → Prop) → β → Prop}
    {p : MProg H α} {f : α → MProg H β} {A : Ptr → Prop} {B : H → Prop} (hp : p.Kept P Q A B)
    (hf : ∀ A' B' a, (∀ q, A q → A' q) → (∀ h, B h → B' h) → Q A' B' a → (f a).Kept P R A' B') : (p.bind f).Kept P R A B := by
  induction p generalizing A B with
  | ret a => exact hf A B a (fun _ h => h) (fun _ h => h) hp
  | panic => trivial
  | op c k ih =>
    exact ⟨hp.1, fun a ha => ih a (hp.2 a ha) fun A' B' b h1 h2 => hf A' B' b (fun q h => h1 q (.inl h)) (fun h hh => h2 h (.inl hh))⟩
  | host c k ih =>
    exact ⟨hp.1, hp.2.1, fun a => ih a (hp.2.2 a) fun A' B' b h1 h2 => hf A' B' b h1 (fun h hh => h2 h (.inl hh))⟩

/-- nothing is asked of the result -/
abbrev Any {α : Type} : (Ptr → Prop) → (H → Prop) → α → Prop := fun _ _ _ => True

/-! ### The methods -/

/-- what the names of a request lead to -/
def Closed (rootPath : GoString) (P : GoString → Prop) : TMsg → Prop
  | .attach q => P (pathJoin rootPath (pathJoin [slash] q.Aname))
  | .walk q => ∀ n ∈ q.Paths, ∀ p, P p → P (pathJoin p n)
  | .create q => ∀ p, P p → P (pathJoin p q.Name)
  | .wstat q => ∀ d t b, unmarshaldir (Buffer.ofBytes q.B) = .done d t none b → d.Name ≠ [] → ∀ p, P p → P (renameTo rootPath p d.Name)
  | _ => True

variable {A : Ptr → Prop} {B : H → Prop}

theorem kept_withFile {α : Type} {fid : FID} {k : Ptr → MMet H α}
    (hk : ∀ (A : Ptr → Prop) (B : H → Prop) p, A p → (k p).Kept P Any A B) : (withFile fid k).Kept P Any A B := by
  refine ⟨trivial, fun _ _ => ⟨trivial, fun r _ => ⟨trivial, fun _ _ => ?_⟩⟩⟩
  cases r with
  | none => trivial
  | some p => exact hk _ _ p (by simp [MOp.addr])

theorem kept_asReply {α : Type} {f : α → RMsg} {p : MMet H α} (hp : p.Kept P Any A B) : (mAsReply f p).Kept P Any A B :=
  hp.bind fun A' B' a _ _ _ => by cases a <;> trivial

theorem kept_walkLoop {names : List GoString} : ∀ {p : GoString} {B : H → Prop}, P p → (∀ n ∈ names, ∀ p, P p → P (pathJoin p n)) →
    (MProg.ofProg (pwalkLoop p names)).Kept P (fun A' _ r => (∀ q, A q → A' q) ∧ ∀ path, r.2 = some path → P path) A B := by
  induction names with
  | nil => exact fun hp _ => ⟨fun _ h => h, fun path h => by cases h; exact hp⟩
  | cons n ns ih =>
    intro p B hp hn
    have hj := hn n (by simp) p hp
    refine ⟨fun q hq => ?_, fun h hh => (by cases hh), fun a => ?_⟩
    · rw [List.mem_singleton.1 hq]; exact hj
    · cases a with
      | error e => exact ⟨fun _ h => h, fun path h => by cases h⟩
      | ok st =>
        have : ∀ q : Prog H (List QID × Option GoString), MProg.ofProg (q.bind fun r => .ret (fileInfoToQID st :: r.1, r.2)) =
            (MProg.ofProg q).bind fun r => .ret (fileInfoToQID st :: r.1, r.2) := by
          intro q
          induction q with
          | ret a => rfl
          | panic => rfl
          | call c k ih => simp only [Prog.bind, MProg.ofProg, MProg.bind, ih]
        show (MProg.ofProg ((pwalkLoop (pathJoin p n) ns).bind fun r => .ret (fileInfoToQID st :: r.1, r.2))).Kept P _ A _
        rw [this]
        exact (ih hj fun m hm => hn m (List.mem_cons_of_mem _ hm)).bind fun A' B' r _ _ hr => ⟨hr.1, fun path h => hr.2 path h⟩

theorem kept_attach {fid afid : FID} {uname aname : GoString} (h : P (pathJoin rootPath (pathJoin [slash] aname))) :
    (mattach rootPath fid afid uname aname : MMet H QID).Kept P Any A B := by
  unfold mattach
  split
  · trivial
  · refine ⟨fun q hq => by rw [List.mem_singleton.1 hq]; exact h, fun h hh => (by cases hh), fun a => ?_⟩
    cases a with
    | error e => trivial
    | ok st =>
      exact ⟨⟨h, fun _ hh => by cases hh⟩, fun p _ => ⟨.inr rfl, fun _ _ => ⟨trivial, fun _ _ => ⟨trivial, fun _ _ => trivial⟩⟩⟩⟩

theorem kept_walk {fid newfid : FID} {paths : List GoString} (h : ∀ n ∈ paths, ∀ p, P p → P (pathJoin p n)) :
    (mwalk fid newfid paths : MMet H (List QID)).Kept P Any A B := by
  refine kept_withFile fun A B p hA => ?_
  split
  · refine ⟨trivial, fun _ _ => ⟨trivial, fun r _ => ?_⟩⟩
    cases r with
    | some _ => exact ⟨trivial, fun _ _ => trivial⟩
    | none =>
      refine ⟨trivial, fun q _ => ⟨.inl (.inl (.inl hA)), fun n hn => ⟨trivial, fun f _ => ⟨trivial, fun b _ => ⟨⟨hn, fun h hh => ?_⟩, fun p' _ => ?_⟩⟩⟩⟩⟩
      · exact .inl (.inr hh)
      · exact ⟨.inr rfl, fun _ _ => ⟨trivial, fun _ _ => trivial⟩⟩
  · refine ⟨hA, fun n hn => (kept_walkLoop hn h).bind fun A' B' r _ _ hr => ?_⟩
    obtain ⟨q, o⟩ := r
    cases o with
    | none => dsimp only; split <;> trivial
    | some path =>
      have hset : ∀ (A : Ptr → Prop) (B : H → Prop), (MProg.op (.alloc { fullName := path, qid := q.getLastD {} }) fun p' =>
          .op (.assign newfid p') fun _ => .op .unlock fun _ => (mOk q : MMet H (List QID))).Kept P Any A B :=
        fun A B => ⟨⟨hr.2 path rfl, fun _ hh => by cases hh⟩, fun p _ => ⟨.inr rfl, fun _ _ => ⟨trivial, fun _ _ => trivial⟩⟩⟩
      refine ⟨trivial, fun _ _ => ?_⟩
      split
      · refine ⟨trivial, fun r _ => ?_⟩
        cases r with
        | some _ => exact ⟨trivial, fun _ _ => trivial⟩
        | none => exact hset _ _
      · exact hset _ _

theorem kept_open {fid : FID} {mode : Mode} : (mopen iounit fid mode : MMet H (QID × MaxSize)).Kept P Any A B := by
  refine kept_withFile fun A B p hA => ⟨hA, fun n hn => ⟨fun q hq => by rw [List.mem_singleton.1 hq]; exact hn, fun h hh => (by cases hh), fun a => ?_⟩⟩
  cases a with
  | error e => exact ⟨fun _ hh => (by cases hh), fun _ _ => trivial⟩
  | ok h => exact ⟨fun _ hh => .inr hh, fun _ _ => ⟨trivial, fun _ _ => trivial⟩⟩

theorem kept_create {fid : FID} {name : GoString} {perm : Perm} {mode : Mode} (hc : ∀ p, P p → P (pathJoin p name)) :
    (mcreate fid name perm mode : MMet H (QID × MaxSize)).Kept P Any A B := by
  refine kept_withFile fun A B p hA => ⟨trivial, fun f _ => ?_⟩
  cases f with
  | some _ => trivial
  | none =>
    refine ⟨.inl hA, fun n hn => ?_⟩
    have hj := hc n hn
    have one : ∀ q, q ∈ [pathJoin n name] → P q := fun q hq => by rw [List.mem_singleton.1 hq]; exact hj
    dsimp only
    split
    · refine ⟨one, fun h hh => (by cases hh), fun _ => ⟨one, fun h hh => (by cases hh), fun a => ?_⟩⟩
      cases a with
      | error e => trivial
      | ok st => exact ⟨hj, fun _ _ => ⟨trivial, fun _ _ => trivial⟩⟩
    · refine ⟨one, fun h hh => (by cases hh), fun a => ?_⟩
      cases a with
      | error e => trivial
      | ok h =>
        refine ⟨one, fun h hh => (by cases hh), fun a => ?_⟩
        cases a with
        | error e => trivial
        | ok st => exact ⟨hj, fun _ _ => ⟨trivial, fun _ _ => ⟨fun _ hh => .inl (.inl (.inl (.inr hh))), fun _ _ => trivial⟩⟩⟩

theorem kept_clunkFile {fid : FID} : (mclunkFile fid : MMet H Ptr).Kept P (fun A' _ r => ∀ p, r = .ok p → A' p) A B := by
  refine ⟨trivial, fun _ _ => ⟨trivial, fun r _ => ?_⟩⟩
  cases r with
  | none => exact ⟨trivial, fun _ _ p hp => by cases hp⟩
  | some p =>
    refine ⟨trivial, fun _ _ => ⟨trivial, fun f _ => ?_⟩⟩
    cases f with
    | none => exact ⟨trivial, fun _ _ q hq => by cases hq; exact .inl (.inl (.inl (.inr rfl)))⟩
    | some _ =>
      refine ⟨trivial, fun f _ => ?_⟩
      cases f with
      | none =>
        exact ⟨.inl (.inl (.inl (.inr rfl))), fun _ _ => ⟨trivial, fun _ _ q hq => by cases hq; exact .inl (.inl (.inl (.inl (.inl (.inr rfl)))))⟩⟩
      | some h =>
        refine ⟨fun q hq => (by cases hq), fun _ hh => .inr hh, fun e => ?_⟩
        cases e with
        | none => exact ⟨trivial, fun _ _ q hq => by cases hq; exact .inl (.inl (.inl (.inl (.inr rfl))))⟩
        | some _ =>
          exact ⟨.inl (.inl (.inl (.inr rfl))), fun _ _ => ⟨trivial, fun _ _ q hq => by cases hq; exact .inl (.inl (.inl (.inl (.inl (.inr rfl)))))⟩⟩

theorem kept_clunk {fid : FID} : (mclunk fid : MMet H Unit).Kept P Any A B :=
  kept_clunkFile.bind fun _ _ r _ _ _ => by cases r <;> trivial

theorem kept_remove {fid : FID} : (mremove fid : MMet H Unit).Kept P Any A B := by
  refine kept_clunkFile.bind fun A' B' r _ _ hr => ?_
  cases r with
  | error e => trivial
  | ok p =>
    refine ⟨hr p rfl, fun n hn => ⟨fun q hq => by rw [List.mem_singleton.1 hq]; exact hn, fun h hh => (by cases hh), fun a => ?_⟩⟩
    cases a <;> trivial

theorem kept_stat {fid : FID} : (mstat user fid : MMet H Bytes).Kept P Any A B := by
  refine kept_withFile fun A B p hA => ⟨hA, fun n hn => ⟨fun q hq => by rw [List.mem_singleton.1 hq]; exact hn, fun h hh => (by cases hh), fun a => ?_⟩⟩
  cases a <;> trivial

theorem kept_andThen {r k : MProg H (Option GoString)} {p : Ptr} (hA : A p) (hr : r.Kept P Any A B)
    (hk : ∀ (A : Ptr → Prop) (B : H → Prop), A p → k.Kept P Any A B) : (mAndThen r k).Kept P Any A B := by
  refine hr.bind fun A' B' o h1 _ _ => ?_
  cases o with
  | some e => trivial
  | none => exact hk A' B' (h1 p hA)

theorem kept_wstat {fid : FID} {b : Bytes} (hc : ∀ d t b', unmarshaldir (Buffer.ofBytes b) = .done d t none b' → d.Name ≠ [] → ∀ p, P p →
    P (renameTo rootPath p d.Name)) : (mwstat rootPath fid b : MMet H Unit).Kept P Any A B := by
  refine kept_withFile fun A B p hA => ?_
  split
  · trivial
  · trivial
  · rename_i dir t b' hd
    have hren := hc dir t b' hd
    refine MProg.Kept.bind (Q := Any) ?_ fun A' B' o _ _ _ => by cases o <;> trivial
    have one : ∀ {n : GoString}, P n → ∀ q, q ∈ [n] → P q := fun hn q hq => by rw [List.mem_singleton.1 hq]; exact hn
    refine kept_andThen hA ?_ fun A B hA => kept_andThen hA ?_ fun A B hA => kept_andThen hA ?_ fun A B hA => kept_andThen hA ?_ fun A B hA =>
      kept_andThen hA ?_ fun A B hA => ?_
    · unfold mwstatMode
      split
      · exact ⟨hA, fun n hn => ⟨one hn, fun h hh => (by cases hh), fun _ => trivial⟩⟩
      · trivial
    · unfold mwstatUser
      split <;> trivial
    · unfold mwstatName
      split
      · rename_i hne
        refine ⟨hA, fun n hn => ⟨one (hren hne n hn), fun h hh => (by cases hh), fun a => ?_⟩⟩
        dsimp only
        split
        · trivial
        · refine ⟨.inl hA, fun n' hn' => ⟨fun q hq => ?_, fun h hh => (by cases hh), fun a => ?_⟩⟩
          · rcases List.mem_cons.1 hq with rfl | hq
            · exact hn'
            · exact one (hren hne n hn) q hq
          · cases a with
            | some e => trivial
            | none => exact ⟨hren hne n hn, fun _ _ => trivial⟩
      · trivial
    · unfold mwstatLength
      split
      · exact ⟨hA, fun n hn => ⟨one hn, fun h hh => (by cases hh), fun _ => trivial⟩⟩
      · trivial
    · unfold mwstatTimes
      split
      · split
        · refine ⟨hA, fun n hn => ⟨one hn, fun h hh => (by cases hh), fun a => ?_⟩⟩
          cases a with
          | error e => trivial
          | ok st => exact ⟨.inl hA, fun n hn => ⟨one hn, fun h hh => (by cases hh), fun _ => trivial⟩⟩
        · exact ⟨hA, fun n hn => ⟨one hn, fun h hh => (by cases hh), fun _ => trivial⟩⟩
      · trivial
    · unfold mwstatSync
      split
      · trivial
      · refine ⟨trivial, fun f _ => ?_⟩
        cases f with
        | none => trivial
        | some _ =>
          refine ⟨trivial, fun f _ => ?_⟩
          cases f with
          | none => trivial
          | some h => exact ⟨fun q hq => (by cases hq), fun _ hh => .inr hh, fun _ => trivial⟩

theorem kept_readDir {p : Ptr} {c : Count} : (mreadDir user p c : MMet H Bytes).Kept P Any A B := by
  refine ⟨trivial, fun b _ => ⟨trivial, fun _ _ => ?_⟩⟩
  unfold mreadDirFrom
  split
  · exact ⟨trivial, fun _ _ => trivial⟩
  · refine ⟨trivial, fun f _ => ?_⟩
    cases f with
    | none => trivial
    | some h =>
      refine ⟨fun q hq => (by cases hq), fun _ hh => .inr hh, fun a => ?_⟩
      cases a with
      | eof => trivial
      | fail e => trivial
      | entry st => dsimp only; split <;> trivial

theorem kept_read {fid : FID} {off : Offset} {c : Count} : (mread user fid off c : MMet H Bytes).Kept P Any A B := by
  refine kept_withFile fun A B p hA => ⟨trivial, fun f _ => ?_⟩
  cases f with
  | none => trivial
  | some _ =>
    refine ⟨trivial, fun q _ => ?_⟩
    dsimp only
    unfold mreadAs
    split
    · split
      · refine ⟨trivial, fun _ _ => ⟨trivial, fun f _ => ?_⟩⟩
        cases f with
        | none => trivial
        | some h =>
          refine ⟨fun q hq => (by cases hq), fun _ hh => .inr hh, fun a => ?_⟩
          cases a with
          | some e => trivial
          | none => exact kept_readDir
      · exact kept_readDir
    · split
      · trivial
      · refine ⟨trivial, fun f _ => ?_⟩
        cases f with
        | none => trivial
        | some h =>
          refine ⟨fun q hq => (by cases hq), fun _ hh => .inr hh, fun a => ?_⟩
          obtain ⟨d, e⟩ := a
          cases e <;> trivial

theorem kept_write {fid : FID} {off : Offset} {b : Bytes} : (mwrite fid off b : MMet H Count).Kept P Any A B := by
  refine kept_withFile fun A B p hA => ⟨trivial, fun f _ => ?_⟩
  cases f with
  | none => trivial
  | some _ =>
    refine ⟨trivial, fun f _ => ?_⟩
    cases f with
    | none => trivial
    | some h =>
      refine ⟨fun q hq => (by cases hq), fun _ hh => .inr hh, fun a => ?_⟩
      obtain ⟨d, e⟩ := a
      cases e <;> trivial

theorem kept_call {m : TMsg} (h : Closed rootPath P m) : (mcall user rootPath iounit m : MMet H RMsg).Kept P Any A B := by
  cases m with
  | version q =>
    refine kept_asReply ?_
    unfold mversion
    split
    · trivial
    · exact ⟨trivial, fun _ _ => trivial⟩
  | attach q => exact kept_asReply (kept_attach h)
  | flush q => exact kept_asReply trivial
  | walk q => exact kept_asReply (kept_walk h)
  | open_ q => exact kept_asReply kept_open
  | create q => exact kept_asReply (kept_create h)
  | stat q => exact kept_asReply kept_stat
  | wstat q => exact kept_asReply (kept_wstat h)
  | clunk q => exact kept_asReply kept_clunk
  | remove q => exact kept_asReply kept_remove
  | read q => exact kept_asReply kept_read
  | write q => exact kept_asReply kept_write

/-! ### Executions -/

/-- the invariant -/
structure Held (P : GoString → Prop) (ls : List (SLabel ω H)) (s : SSys ω H) : Prop where
  tab : ∀ f p, s.mem.files f = some p → P (s.mem.heap p).fullName
  opened : ∀ p h, (s.mem.heap p).file = some h → Got ls h
  busy : ∀ g m p, s.run g = some (m, p) → ∃ A B, p.Kept P Any A B ∧ (∀ q, A q → P (s.mem.heap q).fullName) ∧ ∀ h, B h → Got ls h

theorem Got.snoc {ls : List (SLabel ω H)} {h : H} (hg : Got ls h) (l : SLabel ω H) : Got (ls ++ [l]) h := by
  obtain ⟨g, e, h1, h2⟩ := hg
  exact ⟨g, e, List.mem_append_left _ h1, h2⟩

/-- what an operation does to the names and the open files -/
theorem fit_act {g : Nat} {c : MOp H} {s mem : SMem H} {a : c.Ans} (ha : s.act g c = some (mem, a)) (hc : c.Fit P A B) :
    (∀ q, P (s.heap q).fullName → P (mem.heap q).fullName) ∧
    (∀ q h, (mem.heap q).file = some h → (s.heap q).file = some h ∨ B h) ∧
    (∀ f p, mem.files f = some p → s.files f = some p ∨ A p) := by
  cases c with
  | lock => simp only [SMem.act] at ha; split at ha <;> cases ha; exact ⟨fun _ h => h, fun _ _ h => .inl h, fun _ _ h => .inl h⟩
  | unlock => simp only [SMem.act] at ha; split at ha <;> cases ha; exact ⟨fun _ h => h, fun _ _ h => .inl h, fun _ _ h => .inl h⟩
  | setVersioned => cases ha; exact ⟨fun _ h => h, fun _ _ h => .inl h, fun _ _ h => .inl h⟩
  | setRoot p => cases ha; exact ⟨fun _ h => h, fun _ _ h => .inl h, fun _ _ h => .inl h⟩
  | lookup f => cases ha; exact ⟨fun _ h => h, fun _ _ h => .inl h, fun _ _ h => .inl h⟩
  | load p x => cases ha; exact ⟨fun _ h => h, fun _ _ h => .inl h, fun _ _ h => .inl h⟩
  | assign f p =>
    cases ha
    refine ⟨fun _ h => h, fun _ _ h => .inl h, fun f' p' h => ?_⟩
    dsimp only at h
    split at h
    · cases h; exact .inr hc
    · exact .inl h
  | delete f =>
    cases ha
    refine ⟨fun _ h => h, fun _ _ h => .inl h, fun f' p' h => ?_⟩
    dsimp only at h
    split at h
    · cases h
    · exact .inl h
  | alloc f =>
    cases ha
    refine ⟨fun q h => ?_, fun q h hh => ?_, fun _ _ h => .inl h⟩
    · dsimp only
      split
      · exact hc.1
      · exact h
    · dsimp only at hh
      split at hh
      · exact .inr (hc.2 h hh)
      · exact .inl hh
  | store p x v =>
    cases ha
    refine ⟨fun q h => ?_, fun q h hh => ?_, fun _ _ h => .inl h⟩
    · dsimp only
      split
      · rename_i e
        subst e
        cases x with
        | name => exact hc
        | _ => exact h
      · exact h
    · dsimp only at hh
      split at hh
      · rename_i e
        subst e
        cases x with
        | file => exact .inr (hc h hh)
        | _ => exact .inl hh
      · exact .inl hh

/-- what it yields -/
theorem act_tells {g : Nat} {c : MOp H} {s mem : SMem H} {a : c.Ans} (ha : s.act g c = some (mem, a)) (hc : c.Fit P A B)
    (hA : ∀ q, A q → P (s.heap q).fullName) (ht : ∀ f p, s.files f = some p → P (s.heap p).fullName) :
    c.Tells P a ∧ (∀ p, c.addr a = some p → P (mem.heap p).fullName) ∧ ∀ h, c.open? a = some h → ∃ p, (s.heap p).file = some h := by
  cases c with
  | lock => exact ⟨trivial, nofun, nofun⟩
  | unlock => exact ⟨trivial, nofun, nofun⟩
  | setVersioned => exact ⟨trivial, nofun, nofun⟩
  | setRoot p => exact ⟨trivial, nofun, nofun⟩
  | assign f p => exact ⟨trivial, nofun, nofun⟩
  | delete f => exact ⟨trivial, nofun, nofun⟩
  | store p x v => cases x <;> exact ⟨trivial, nofun, nofun⟩
  | lookup f => cases ha; exact ⟨trivial, fun p hp => ht f p hp, nofun⟩
  | alloc f =>
    cases ha
    refine ⟨trivial, fun p hp => ?_, nofun⟩
    cases hp
    dsimp only
    rw [if_pos rfl]
    exact hc.1
  | load p x =>
    cases ha
    cases x with
    | name => exact ⟨hA p hc, nofun, nofun⟩
    | file => exact ⟨trivial, nofun, fun h hh => ⟨p, hh⟩⟩
    | qid => exact ⟨trivial, nofun, nofun⟩
    | oflow => exact ⟨trivial, nofun, nofun⟩

theorem held {ls : List (SLabel ω H)} {s : SSys ω H} (hr : SRun user rootPath iounit host w0 ls s)
    (hc : ∀ g m, SLabel.begin g m ∈ ls → Closed rootPath P m) : Held P ls s := by
  induction hr with
  | init => exact ⟨nofun, nofun, nofun⟩
  | @step ls s s' l c _ hs ih =>
    have ih := ih fun g m h => hc g m (List.mem_append_left _ h)
    have keep : ∀ {g m p}, s.run g = some (m, p) → ∃ A B, p.Kept P Any A B ∧ (∀ q, A q → P (s.mem.heap q).fullName) ∧
        ∀ h, B h → Got (ls ++ [l]) h := fun h => by
      obtain ⟨A, B, h1, h2, h3⟩ := ih.busy _ _ _ h
      exact ⟨A, B, h1, h2, fun h hh => (h3 h hh).snoc l⟩
    rcases step_cases hs with ⟨g, m, rfl, hrun, rfl⟩ | ⟨g, m, r, rfl, hrun, rfl⟩ | ⟨g, m, c, k, mem, a, rfl, hrun, ha, rfl⟩ | ⟨g, m, c, k, rfl, hrun, rfl⟩ |
      ⟨w, rfl, rfl⟩
    · refine ⟨ih.tab, fun p h hh => (ih.opened p h hh).snoc _, fun g' m' p' h => ?_⟩
      simp only [SSys.setRun] at h
      split at h
      · cases h
        exact ⟨fun _ => False, fun _ => False, kept_call (hc g m (by simp)), nofun, nofun⟩
      · exact keep h
    · refine ⟨ih.tab, fun p h hh => (ih.opened p h hh).snoc _, fun g' m' p' h => ?_⟩
      simp only [SSys.setRun] at h
      split at h
      · cases h
      · exact keep h
    · obtain ⟨A, B, hk, hA, hB⟩ := ih.busy _ _ _ hrun
      obtain ⟨f1, f2, f3⟩ := fit_act ha hk.1
      obtain ⟨t1, t2, t3⟩ := act_tells ha hk.1 hA ih.tab
      refine ⟨fun f p h => ?_, fun p h hh => ?_, fun g' m' p' h => ?_⟩
      · rcases f3 f p h with h | h
        · exact f1 p (ih.tab f p h)
        · exact f1 p (hA p h)
      · rcases f2 p h hh with h' | h'
        · exact (ih.opened p h h').snoc _
        · exact (hB h h').snoc _
      · simp only [SSys.setRun] at h
        split at h
        · cases h
          refine ⟨_, _, hk.2 a t1, fun q hq => ?_, fun h hh => ?_⟩
          · rcases hq with hq | hq
            · exact f1 q (hA q hq)
            · exact t2 q hq
          · rcases hh with hh | hh
            · exact (hB h hh).snoc _
            · obtain ⟨p, hp⟩ := t3 h hh
              exact (ih.opened p h hp).snoc _
        · obtain ⟨A', B', h1, h2, h3⟩ := keep h
          exact ⟨A', B', h1, fun q hq => f1 q (h2 q hq), h3⟩
    · obtain ⟨A, B, hk, hA, hB⟩ := ih.busy _ _ _ hrun
      refine ⟨ih.tab, fun p h hh => (ih.opened p h hh).snoc _, fun g' m' p' h => ?_⟩
      simp only [SSys.setRun] at h
      split at h
      · cases h
        refine ⟨A, _, hk.2.2 _, hA, fun h hh => ?_⟩
        rcases hh with hh | hh
        · exact (hB h hh).snoc _
        · exact ⟨g, _, by simp, hh⟩
      · exact keep h
    · exact ⟨ih.tab, fun p h hh => (ih.opened p h hh).snoc _, fun g' m' p' h => keep h⟩

theorem bounded {ls : List (SLabel ω H)} {s : SSys ω H} (hr : SRun user rootPath iounit host w0 ls s)
    (hc : ∀ g m, SLabel.begin g m ∈ ls → Closed rootPath P m) : Bounded P ls := by
  induction hr with
  | init => intro l1 g e l2 h; simp at h
  | @step ls s s' l c hr hs ih =>
    have ih := ih fun g m h => hc g m (List.mem_append_left _ h)
    have hh := held hr fun g m h => hc g m (List.mem_append_left _ h)
    intro l1 g e l2 he
    rcases List.eq_nil_or_concat l2 with rfl | ⟨l2', x, rfl⟩
    · obtain ⟨rfl, hx⟩ := List.append_inj' he rfl
      cases hx
      rcases step_cases hs with ⟨_, _, h, _, _⟩ | ⟨_, _, _, h, _, _⟩ | ⟨_, _, _, _, _, _, h, _, _, _⟩ | ⟨g', m, c, k, h, hrun, _⟩ | ⟨_, h, _⟩ <;> cases h
      obtain ⟨A, B, hk, hA, hB⟩ := hh.busy _ _ _ hrun
      refine ⟨hk.1, fun h hu => ?_⟩
      obtain ⟨g2, ⟨c2, a2⟩, hm, hg⟩ := hB h (hk.2.1 h hu)
      obtain ⟨x, y, hxy⟩ := List.append_of_mem hm
      cases c2 with
      | openFile p flags perm =>
        cases a2 with
        | error e => cases hg
        | ok h' =>
          cases hg
          exact ⟨g2, p, flags, perm, (ih x g2 _ y hxy).1 p (by simp [HCall.paths]), hm⟩
      | _ => cases hg
    · rw [List.concat_eq_append, show l1 ++ SLabel.call g e :: (l2' ++ [x]) = (l1 ++ SLabel.call g e :: l2') ++ [x] by simp] at he
      obtain ⟨rfl, _⟩ := List.append_inj' he rfl
      exact ih l1 g e l2' rfl

/-! ### The theorems -/

theorem isAbs_iff (name : GoString) : isAbs name = true ↔ name.head? = some 47 := by
  unfold isAbs slash
  cases name <;> simp

theorem modest_closed {m : TMsg} (h : Modest m) : Closed rootPath (Below (rootOf rootPath)) m := by
  have hp := rootOf_proper rootPath
  cases m with
  | attach q => exact ⟨place [] (elems q.Aname), noRoot_proper _, attach_path _ q.Aname⟩
  | walk q => exact fun n hn p hb => below_join hp hb (h n hn)
  | create q => exact fun p hb => below_join hp hb h
  | wstat q =>
    intro d t b hd hne p hb
    rcases h d t b hd with h | ⟨h1, h2⟩
    · exact absurd h hne
    · unfold renameTo
      rw [if_pos ((isAbs_iff _).2 h1)]
      exact rootOf_join rootPath h1 h2
  | _ => trivial

/-- C128: However calls overlap, also on the same fids, if no name in them leads up, then all paths that are given to the operating system are at or
below the root, and the open files that are used have been opened with such paths. -/
theorem C128_below {ls : List (SLabel ω H)} {s : SSys ω H} (hr : SRun user rootPath iounit host w0 ls s)
    (hm : ∀ g m, SLabel.begin g m ∈ ls → Modest m) : Bounded (Below (rootOf rootPath)) ls :=
  bounded hr fun g m h => modest_closed (hm g m h)

/-- below the root, and not the root itself -/
def Under (root : Root) (p : GoString) : Prop := ∃ names, names ≠ [] ∧ (∀ n ∈ names, Proper n) ∧ p = root.under names

theorem place_from {es l : List Bytes} (hu : [46, 46] ∉ l) : place es l = es ++ place [] l := by
  induction l generalizing es with
  | nil => simp [place]
  | cons e l ih =>
    have hl : [46, 46] ∉ l := fun h => hu (List.mem_cons_of_mem _ h)
    have he : e ≠ [46, 46] := by rintro rfl; exact hu (by simp)
    rw [place_cons, place_cons, ih hl, ih (es := follow [] e) hl]
    unfold follow
    by_cases h1 : e = [46]
    · simp [h1]
    · simp [h1, he]

theorem deeper_closed {m : TMsg} (h : Deeper m) : Closed rootPath (Under (rootOf rootPath)) m := by
  have hp := rootOf_proper rootPath
  have join : ∀ {n p}, NoUp n → Under (rootOf rootPath) p → Under (rootOf rootPath) (pathJoin p n) := by
    rintro n p hn ⟨names, hne, hnames, rfl⟩
    obtain ⟨more, hm, he⟩ := under_join hp hnames hn
    exact ⟨names ++ more, by simp [hne], below_proper hnames hm, he⟩
  cases m with
  | attach q => exact ⟨place [] (elems q.Aname), h, noRoot_proper _, attach_path _ q.Aname⟩
  | walk q => exact fun n hn p hb => join (h n hn) hb
  | create q => exact fun p hb => join h hb
  | wstat q =>
    intro d t b hd hne p hb
    rcases h d t b hd with h | ⟨h1, h2⟩
    · exact absurd h hne
    · unfold renameTo
      split
      · rename_i ha
        have hh := (isAbs_iff _).1 ha
        refine ⟨place [] (elems d.Name), h1, noRoot_proper _, ?_⟩
        rw [pathJoin_rootOf rootPath hh]
        cases rootOf rootPath with
        | abs es => exact congrArg absPath (place_from (h2 hh))
        | rel r => exact congrArg RelPlace.path ((rel_noUp r (h2 hh)).trans (by rw [place_from (h2 hh)]))
      · obtain ⟨names, hnn, hnames, rfl⟩ := hb
        have hd : ∀ n ∈ names.dropLast, Proper n := fun n hn => hnames n (List.dropLast_subset _ hn)
        rw [under_dir hp hnames hnn, pathJoin_slash, under_join_abs hp hd (noRoot_proper _)]
        exact ⟨_, by simp [show place [] (elems d.Name) ≠ [] from h1], below_proper hd (noRoot_proper _), rfl⟩
  | _ => trivial

/-- C128, if no fid stands for the root itself: new names may be relative. -/
theorem C128_under {ls : List (SLabel ω H)} {s : SSys ω H} (hr : SRun user rootPath iounit host w0 ls s)
    (hm : ∀ g m, SLabel.begin g m ∈ ls → Deeper m) : Bounded (Under (rootOf rootPath)) ls :=
  bounded hr fun g m h => deeper_closed (hm g m h)

theorem slash_closed (hroot : rootOf rootPath = .abs []) (m : TMsg) : Closed rootPath (Below (.abs [])) m := by
  cases m with
  | attach q => exact ⟨place [] (elems q.Aname), noRoot_proper _, by rw [attach_path, hroot]⟩
  | walk q => exact fun n _ p hb => below_nil_join hb n
  | create q => exact fun p hb => below_nil_join hb _
  | wstat q =>
    intro d t b hd hne p hb
    unfold renameTo
    split
    · rename_i ha
      rw [pathJoin_rootOf _ ((isAbs_iff _).1 ha), hroot]
      exact ⟨_, noRoot_proper d.Name, rfl⟩
    · exact below_nil_join (below_nil_dir hb) _
  | _ => trivial

/-- C128 for the default root "/": whatever the names are, the paths are absolute, and have no dots, empty elements or trailing slash. -/
theorem C128_slash (hroot : rootOf rootPath = .abs []) {ls : List (SLabel ω H)} {s : SSys ω H}
    (hr : SRun user rootPath iounit host w0 ls s) : Bounded (fun p => ∃ names, (∀ n ∈ names, Proper n) ∧ p = absPath names) ls :=
  bounded (P := Below (.abs [])) hr fun _ m _ => slash_closed hroot m

end

/-! ### Executions that meet the hypotheses, and wrong statements -/

open Mem

/-- a wstat that renames -/
def renameTo1 (name : GoString) : TMsg := .wstat { OFID := 1, B := Spec.dir (renameDir name) }

theorem renameTo1_dir {name : GoString} (hn : name.length < 2 ^ 16) {d : Dir} {t : Tag} {b : Buffer}
    (h : unmarshaldir (Buffer.ofBytes (Spec.dir (renameDir name))) = .done d t none b) : d.Name = name := by
  have := unmarshaldir_fwd (renameDir name) ⟨hn, Nat.two_pow_pos 16, Nat.two_pow_pos 16, Nat.two_pow_pos 16⟩ [] [] []
  rw [List.append_nil] at this
  rw [show Buffer.ofBytes (Spec.dir (renameDir name)) = ⟨[], Spec.dir (renameDir name), []⟩ from rfl, this] at h
  cases h
  rfl

/-- Goroutine 0 opens the file of fid 1 and reads it, while goroutine 1 renames it, and then both of them create a file with the same fid. -/
def openRename (name : GoString) : List (Choice World) :=
  [.begin 0 (.open_ { OFID := 1, Omode := 0 }), .begin 1 (renameTo1 name)] ++ inTurn 0 1 20 ++ whole 0 (.read { OFID := 1, Off := 0, Len := 4 }) ++
  whole 0 (.walk { SFID := 0, NewFID := 2, Paths := [[100]] }) ++
  [.begin 0 (.create { OFID := 2, Name := [97] }), .begin 1 (.create { OFID := 2, Name := [98] })] ++ inTurn 0 1 20

/-- the requests of an execution -/
def requests (ls : List (SLabel World Nat)) : List TMsg := ls.filterMap fun l => match l with | .begin _ m => some m | _ => none

theorem mem_requests {ls : List (SLabel World Nat)} {g : Nat} {m : TMsg} (h : SLabel.begin g m ∈ ls) : m ∈ requests ls :=
  List.mem_filterMap.2 ⟨_, h, rfl⟩

/-- a call of the host with this path -/
def named (p : GoString) (ls : List (SLabel World Nat)) : Bool := ls.any fun l => match l with | .call _ e => p ∈ e.1.paths | _ => false

/-- a call of the host with this open file -/
def usedFile (h : Nat) (ls : List (SLabel World Nat)) : Bool := ls.any fun l => match l with | .call _ e => e.1.uses = some h | _ => false

theorem noUp1 (a : UInt8) (h : a ≠ 47) : NoUp [a] := noUp_elem (by simp) (by simpa using Ne.symm h) (by simp)

/-- the requests of `before ++ openRename name` -/
theorem requests_openRename (name : GoString) (hn : (requests (shared (before ++ openRename name)).1) =
    [attachTo 0, .walk { SFID := 0, NewFID := 1, Paths := [[102]] }, .open_ { OFID := 1, Omode := 0 }, renameTo1 name,
      .read { OFID := 1, Off := 0, Len := 4 }, .walk { SFID := 0, NewFID := 2, Paths := [[100]] },
      .create { OFID := 2, Name := [97] }, .create { OFID := 2, Name := [98] }]) (h : Modest (renameTo1 name)) :
    ∀ g m, SLabel.begin g m ∈ (shared (before ++ openRename name)).1 → Modest m := by
  intro g m hm
  have := mem_requests hm
  rw [hn] at this
  simp only [List.mem_cons, List.not_mem_nil, or_false] at this
  rcases this with rfl | rfl | rfl | rfl | rfl | rfl | rfl | rfl
  · trivial
  · simpa [Modest] using noUp1 102 (by decide)
  · trivial
  · exact h
  · trivial
  · simpa [Modest] using noUp1 100 (by decide)
  · exact noUp1 97 (by decide)
  · exact noUp1 98 (by decide)

/-- The hypotheses of `C128_below`: a file is opened while it is renamed, and then read; both creates make their file. -/
example : ∃ ls s, SRun [103] [47, 120] 8192 host world0 ls s ∧ (∀ g m, SLabel.begin g m ∈ ls → Modest m) ∧ usedFile 0 ls ∧
    named [47, 120, 47, 103] ls ∧ named [47, 120, 47, 100, 47, 97] ls ∧ named [47, 120, 47, 100, 47, 98] ls :=
  ⟨_, _, shared_run (before ++ openRename [47, 103]), requests_openRename _ (by decide +kernel) (fun d t b h =>
    .inr (by
      rw [renameTo1_dir (by decide) h]
      refine ⟨rfl, ?_⟩
      have := noUp1 103 (by decide)
      unfold NoUp at this ⊢
      rwa [elems_slash])), by decide +kernel⟩

/-- goroutine 0 attaches to "f", not to the root, and gives it a relative new name, while goroutine 1 clones the fid -/
def deep : List (Choice World) :=
  whole 0 (.attach { SFID := 1, AFID := 0xFFFFFFFF, Aname := [102] }) ++
  [.begin 0 (renameTo1 [103]), .begin 1 (.walk { SFID := 1, NewFID := 2 })] ++ inTurn 0 1 20 ++ whole 1 (.stat { OFID := 2 })

/-- the hypotheses of `C128_under` -/
example : ∃ ls s, SRun [103] [47, 120] 8192 host world0 ls s ∧ (∀ g m, SLabel.begin g m ∈ ls → Deeper m) ∧ named [47, 120, 47, 103] ls ∧
    (s.mem.files 2).isSome := by
  refine ⟨_, _, shared_run deep, fun g m hm => ?_, by decide +kernel⟩
  have := mem_requests hm
  rw [show requests (shared deep).1 = [.attach { SFID := 1, AFID := 0xFFFFFFFF, Aname := [102] }, renameTo1 [103], .walk { SFID := 1, NewFID := 2 },
    .stat { OFID := 2 }] by decide +kernel] at this
  simp only [List.mem_cons, List.not_mem_nil, or_false] at this
  rcases this with rfl | rfl | rfl | rfl
  · show Names [102]
    unfold Names
    decide +kernel
  · intro d t b h
    rw [renameTo1_dir (by decide) h]
    exact .inr ⟨by unfold Names; decide +kernel, nofun⟩
  · exact nofun
  · trivial

/-- the hypothesis of `C128_slash`: the root may be given as "" or "/" -/
example : rootOf [] = .abs [] ∧ rootOf [47] = .abs [] := by
  unfold rootOf
  rw [if_pos (.inl rfl), if_pos (.inr rfl), elems_slash]
  simp [elems_nil, place]

theorem not_below_slash : ¬ Below (rootOf [47, 120]) [47] := by
  rw [root_x]
  rintro ⟨names, _, h⟩
  simp [Root.under, absPath] at h

/-- a call with a path outside of the root -/
theorem not_bounded {ls : List (SLabel World Nat)} (h : named [47] ls = true) : ¬ Bounded (Below (rootOf [47, 120])) ls := by
  intro hb
  simp only [named, List.any_eq_true] at h
  obtain ⟨l, hl, h⟩ := h
  cases l with
  | call g e =>
    obtain ⟨x, y, rfl⟩ := List.append_of_mem hl
    exact not_below_slash ((hb x g e y rfl).1 _ (by simpa using h))
  | _ => cases h

/-- `Modest` is needed: a walk with the name ".." looks at the directory above the root. -/
theorem C128_counterexample : ∃ ls s, SRun [103] [47, 120] 8192 host world0 ls s ∧ ¬ Bounded (Below (rootOf [47, 120])) ls :=
  ⟨_, _, shared_run (whole 0 (attachTo 0) ++ whole 0 (.walk { SFID := 0, NewFID := 1, Paths := [[46, 46]] })), not_bounded (by decide +kernel)⟩

end Ninep.Ufs.Shared
