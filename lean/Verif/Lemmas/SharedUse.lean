import Verif.Lemmas.Shared
/-
How the programs of Ufs/Shared.lean use the mutex, the table and the structures.
-/

set_option linter.unusedSectionVars false

namespace Ninep.Ufs.Shared
open Spec

section
variable {ω H : Type}

/-- what a goroutine knows in the middle of a method: whether it holds `mu`, what it has last looked up since, and the structure that
it has made and not put into the table yet -/
structure Knows where
  held : Bool := false
  seen : Option (FID × Bool) := none
  fresh : Option Ptr := none

/-- the fields of the structure of its fid that a call changes -/
def Changes : TMsg → Fld → Prop
  | .open_ _, y => y = .file
  | .create _, y => y ≠ .oflow
  | .wstat _, y => y = .name
  | .read _, y => y = .oflow
  | _, _ => False

/-- What the goroutine may do in a call of `m`: `V` are the fids it may use, `own` the pointers it may follow. -/
def MOp.May (V : FID → Prop) (own : Ptr → Prop) (m : TMsg) (x : Knows) : MOp H → Prop
  | .lock => x.held = false
  | .unlock => x.held = true
  | .setVersioned => ∃ p, m = .version p
  | .setRoot _ => ∃ p, m = .attach p
  | .lookup fid => V fid ∧ x.held = true
  | .assign fid p => V fid ∧ own p ∧ x.fresh = some p ∧ ((∃ q, m = .attach q ∧ q.SFID = fid) ∨
      x.held = true ∧ ∃ q, m = .walk q ∧ q.NewFID = fid ∧ (q.SFID = fid ∨ x.seen = some (fid, false)))
  | .delete fid => V fid ∧ x.held = true ∧ x.seen = some (fid, true) ∧
      ((∃ q, m = .clunk q ∧ q.OFID = fid) ∨ (∃ q, m = .remove q ∧ q.OFID = fid))
  | .alloc _ => True
  | .load p _ => own p
  | .store p y _ => own p ∧ Changes m y

/-- the answers there may be -/
def MOp.Gets (own : Ptr → Prop) : (c : MOp H) → c.Ans → Prop
  | .lookup _, r => ∀ p, r = some p → own p
  | .alloc _, p => own p
  | _, _ => True

/-- what is known after an operation -/
def Knows.next (x : Knows) : (c : MOp H) → c.Ans → Knows
  | .lock, _ => { held := true }
  | .unlock, _ => { held := false }
  | .lookup fid, r => { x with seen := some (fid, r.isSome) }
  | .alloc _, p => { x with fresh := some p }
  | .assign _ _, _ => { x with seen := none, fresh := none }
  | .delete _, _ => { x with seen := none }
  | _, _ => x

/-- the program does nothing else, and does not end with the mutex held; the only host call with the mutex held is `Close` -/
inductive Obeys (V : FID → Prop) (own : Ptr → Prop) (m : TMsg) {α : Type} : Knows → MProg H α → Prop
  | ret {x a} : x.held = false → Obeys V own m x (.ret a)
  | panic {x} : x.held = false → Obeys V own m x .panic
  | op {x c k} : c.May V own m x → (∀ a, c.Gets own a → Obeys V own m (x.next c a) (k a)) → Obeys V own m x (.op c k)
  | host {x c k} : (x.held = true → ∃ h, c = .close h) → (∀ a, Obeys V own m x (k a)) → Obeys V own m x (.host c k)

variable {V : FID → Prop} {own : Ptr → Prop} {m : TMsg} {α β : Type}

theorem Obeys.bind {x : Knows} {p : MProg H α} {f : α → MProg H β} (h : Obeys V own m x p)
    (hf : ∀ y a, y.held = false → Obeys V own m y (f a)) : Obeys V own m x (p.bind f) := by
  induction h with
  | ret h => exact hf _ _ h
  | panic h => exact .panic h
  | op h1 _ ih => exact .op h1 ih
  | host h1 _ ih => exact .host h1 ih

theorem obeys_ofProg {x : Knows} (hx : x.held = false) (p : Prog H α) : Obeys V own m x (MProg.ofProg p) := by
  induction p with
  | ret a => exact .ret hx
  | panic => exact .panic hx
  | call c k ih => exact .host (by simp [hx]) ih

variable {x : Knows} (hx : x.held = false)
include hx

theorem obeys_err (e : GoString) : Obeys V own m x (mErr e : MMet H α) := .ret hx
theorem obeys_ok (a : α) : Obeys V own m x (mOk a : MMet H α) := .ret hx

theorem obeys_load {p : Ptr} (hp : own p) {f : Fld} {k : f.Ty H → MProg H α} (h : ∀ a, Obeys V own m x (k a)) :
    Obeys V own m x (.op (.load p f) k) := .op hp fun a _ => h a

theorem obeys_store {p : Ptr} {f : Fld} (hc : Changes m f) (hp : own p) {v : f.Ty H} {k : Unit → MProg H α} (h : Obeys V own m x (k ())) :
    Obeys V own m x (.op (.store p f v) k) := .op ⟨hp, hc⟩ fun _ _ => h

theorem obeys_host {c : HCall H} {k : c.Ans → MProg H α} (h : ∀ a, Obeys V own m x (k a)) : Obeys V own m x (.host c k) :=
  .host (by simp [hx]) h

theorem obeys_withFile {fid : FID} (hv : V fid) {k : Ptr → MMet H α} (h : ∀ p y, y.held = false → own p → Obeys V own m y (k p)) :
    Obeys V own m x (withFile fid k) := by
  refine .op hx fun _ _ => .op ⟨hv, rfl⟩ fun r hr => .op rfl fun _ _ => ?_
  cases r with
  | none => exact .ret rfl
  | some p => exact h p _ rfl (hr p rfl)

theorem obeys_version (p : TversionPkt) (n : MaxSize) (v : GoString) :
    Obeys V own (.version p) x (mversion n v : MMet H _) := by
  unfold mversion
  split
  · exact .ret hx
  · exact .op ⟨p, rfl⟩ fun _ _ => .ret hx

theorem obeys_attach (rootPath : GoString) (q : TattachPkt) (hv : V q.SFID) (afid : FID) (u a : GoString) :
    Obeys V own (.attach q) x (mattach rootPath q.SFID afid u a : MMet H _) := by
  unfold mattach
  split
  · exact .ret hx
  · refine obeys_host hx fun r => ?_
    cases r with
    | error e => exact .ret hx
    | ok st =>
      exact .op trivial fun p hp => .op ⟨hv, hp, rfl, .inl ⟨q, rfl, rfl⟩⟩ fun _ _ => .op ⟨q, rfl⟩ fun _ _ => .op hp fun _ _ => .ret hx

theorem obeys_open (hc : Changes m .file) (iounit : MaxSize) {fid : FID} (hv : V fid) (mode : Mode) :
    Obeys V own m x (mopen iounit fid mode : MMet H _) := by
  refine obeys_withFile hx hv fun p y hy hp => obeys_load hy hp fun n => obeys_host hy fun r => ?_
  cases r with
  | error e => exact obeys_store hy hc hp (.ret hy)
  | ok h => exact obeys_store hy hc hp (obeys_load hy hp fun _ => .ret hy)

theorem obeys_create (hc : ∀ y, y ≠ .oflow → Changes m y) {fid : FID} (hv : V fid) (n : GoString) (pm : Perm) (mode : Mode) :
    Obeys V own m x (mcreate fid n pm mode : MMet H _) := by
  refine obeys_withFile hx hv fun p y hy hp => obeys_load hy hp fun h => ?_
  cases h with
  | some h => exact .ret hy
  | none =>
    refine obeys_load hy hp fun n' => ?_
    dsimp only
    split
    · refine obeys_host hy fun _ => obeys_host hy fun r => ?_
      cases r with
      | error e => exact .ret hy
      | ok st => exact obeys_store hy (hc _ (by decide)) hp (obeys_store hy (hc _ (by decide)) hp (.ret hy))
    · refine obeys_host hy fun r => ?_
      cases r with
      | error e => exact .ret hy
      | ok h =>
        refine obeys_host hy fun r => ?_
        cases r with
        | error e => exact .ret hy
        | ok st => exact obeys_store hy (hc _ (by decide)) hp (obeys_store hy (hc _ (by decide)) hp (obeys_store hy (hc _ (by decide)) hp (.ret hy)))

theorem obeys_clunkFile {fid : FID} (hv : V fid) (hm : (∃ q, m = .clunk q ∧ q.OFID = fid) ∨ (∃ q, m = .remove q ∧ q.OFID = fid)) {k : Except GoString Ptr → MMet H α}
    (hk : ∀ y r, y.held = false → (∀ p, r = .ok p → own p) → Obeys V own m y (k r)) :
    Obeys V own m x ((mclunkFile fid).bind k) := by
  refine .op hx fun _ _ => .op ⟨hv, rfl⟩ fun r hr => ?_
  cases r with
  | none => exact .op rfl fun _ _ => hk _ _ rfl (by simp)
  | some p =>
    have hp : own p := hr p rfl
    have hok : ∀ y : Knows, y.held = false → Obeys V own m y (k (.ok p)) := fun y hy => hk y _ hy (by rintro q ⟨⟩; exact hp)
    refine .op ⟨hv, rfl, rfl, hm⟩ fun _ _ => .op hp fun h _ => ?_
    cases h with
    | none => exact .op rfl fun _ _ => hok _ rfl
    | some h =>
      refine .op hp fun h _ => ?_
      cases h with
      | none => exact .op hp fun _ _ => .op rfl fun _ _ => hok _ rfl
      | some h =>
        refine .host (fun _ => ⟨h, rfl⟩) fun e => ?_
        cases e with
        | none => exact .op rfl fun _ _ => hok _ rfl
        | some e => exact .op hp fun _ _ => .op rfl fun _ _ => hok _ rfl

theorem obeys_clunk (q : TclunkPkt) (hv : V q.OFID) : Obeys V own (.clunk q) x (mclunk q.OFID : MMet H _) := by
  refine obeys_clunkFile hx hv (.inl ⟨q, rfl, rfl⟩) fun y r hy _ => ?_
  cases r <;> exact .ret hy

theorem obeys_remove (q : TremovePkt) (hv : V q.OFID) : Obeys V own (.remove q) x (mremove q.OFID : MMet H _) := by
  refine obeys_clunkFile hx hv (.inr ⟨q, rfl, rfl⟩) fun y r hy hr => ?_
  cases r with
  | error e => exact .ret hy
  | ok p =>
    refine obeys_load hy (hr p rfl) fun n => obeys_host hy fun r => ?_
    cases r <;> exact .ret hy

theorem obeys_walk (q : TwalkPkt) (hv : V q.SFID) (hn : V q.NewFID) (ns : List GoString) :
    Obeys V own (.walk q) x (mwalk q.SFID q.NewFID ns : MMet H _) := by
  refine obeys_withFile hx hv fun p y hy hp => ?_
  split
  · refine .op hy fun _ _ => .op ⟨hn, rfl⟩ fun r _ => ?_
    cases r with
    | some _ => exact .op rfl fun _ _ => .ret rfl
    | none =>
      exact .op hp fun _ _ => .op hp fun _ _ => .op hp fun _ _ => .op hp fun _ _ => .op trivial fun p' hp' =>
        .op ⟨hn, hp', rfl, .inr ⟨rfl, q, rfl, rfl, .inr rfl⟩⟩ fun _ _ => .op rfl fun _ _ => .ret rfl
  · refine obeys_load hy hp fun n => (obeys_ofProg hy _).bind fun y r hy => ?_
    obtain ⟨qs, r⟩ := r
    cases r with
    | none =>
      dsimp only
      split <;> exact .ret hy
    | some path =>
      refine .op hy fun _ _ => ?_
      split
      · refine .op ⟨hn, rfl⟩ fun r _ => ?_
        cases r with
        | some _ => exact .op rfl fun _ _ => .ret rfl
        | none => exact .op trivial fun p' hp' => .op ⟨hn, hp', rfl, .inr ⟨rfl, q, rfl, rfl, .inr rfl⟩⟩ fun _ _ => .op rfl fun _ _ => .ret rfl
      · rename_i e
        exact .op trivial fun p' hp' => .op ⟨hn, hp', rfl, .inr ⟨rfl, q, rfl, rfl, .inl (Decidable.not_not.1 e)⟩⟩ fun _ _ =>
          .op rfl fun _ _ => .ret rfl

theorem obeys_stat (user : GoString) {fid : FID} (hv : V fid) : Obeys V own m x (mstat user fid : MMet H _) := by
  refine obeys_withFile hx hv fun p y hy hp => obeys_load hy hp fun n => obeys_host hy fun r => ?_
  cases r <;> exact .ret hy

theorem obeys_andThen {r k : MProg H (Option GoString)} (h : Obeys V own m x r) (hk : ∀ y, y.held = false → Obeys V own m y k) :
    Obeys V own m x (mAndThen r k) := by
  refine h.bind fun y a hy => ?_
  cases a with
  | none => exact hk y hy
  | some e => exact .ret hy

theorem obeys_wstat (hc : Changes m .name) (rootPath : GoString) {fid : FID} (hv : V fid) (b : Bytes) : Obeys V own m x (mwstat rootPath fid b : MMet H _) := by
  refine obeys_withFile hx hv fun p y hy hp => ?_
  split
  · exact .panic hy
  · exact .ret hy
  · rename_i dir _ _ _
    refine Obeys.bind (obeys_andThen hy ?_ fun y hy => obeys_andThen hy ?_ fun y hy => obeys_andThen hy ?_ fun y hy =>
      obeys_andThen hy ?_ fun y hy => obeys_andThen hy ?_ fun y hy => ?_) fun y r hy => ?_
    · unfold mwstatMode
      split
      · exact obeys_load hy hp fun n => obeys_host hy fun e => .ret hy
      · exact .ret hy
    · unfold mwstatUser
      split <;> exact .ret hy
    · unfold mwstatName
      split
      · refine obeys_load hy hp fun n => obeys_host hy fun r => ?_
        cases isDirAns r with
        | true => exact .ret hy
        | false =>
          refine obeys_load hy hp fun n => obeys_host hy fun r => ?_
          cases r with
          | some e => exact .ret hy
          | none => exact obeys_store hy hc hp (.ret hy)
      · exact .ret hy
    · unfold mwstatLength
      split
      · exact obeys_load hy hp fun n => obeys_host hy fun e => .ret hy
      · exact .ret hy
    · unfold mwstatTimes
      split
      · split
        · refine obeys_load hy hp fun n => obeys_host hy fun r => ?_
          cases r with
          | error e => exact .ret hy
          | ok st => exact obeys_load hy hp fun n => obeys_host hy fun e => .ret hy
        · exact obeys_load hy hp fun n => obeys_host hy fun e => .ret hy
      · exact .ret hy
    · unfold mwstatSync
      cases wstatChanges dir with
      | true => exact .ret hy
      | false =>
        refine obeys_load hy hp fun h => ?_
        cases h with
        | none => exact .ret hy
        | some h =>
          refine obeys_load hy hp fun h => ?_
          cases h with
          | none => exact .ret hy
          | some h => exact obeys_host hy fun _ => .ret hy
    · cases r <;> exact .ret hy

theorem obeys_readDir (hc : Changes m .oflow) (user : GoString) {p : Ptr} (hp : own p) (c : Count) : Obeys V own m x (mreadDir user p c : MMet H _) := by
  refine obeys_load hx hp fun b => obeys_store hx hc hp ?_
  unfold mreadDirFrom
  split
  · exact obeys_store hx hc hp (.ret hx)
  · refine obeys_load hx hp fun h => ?_
    cases h with
    | none => exact .ret hx
    | some h =>
      refine obeys_host hx fun r => ?_
      cases r with
      | eof => exact .ret hx
      | fail e => exact .ret hx
      | entry st =>
        dsimp only
        split <;> exact .ret hx

theorem obeys_read (hc : Changes m .oflow) (user : GoString) {fid : FID} (hv : V fid) (off : Offset) (c : Count) :
    Obeys V own m x (mread user fid off c : MMet H _) := by
  refine obeys_withFile hx hv fun p y hy hp => obeys_load hy hp fun h => ?_
  cases h with
  | none => exact .ret hy
  | some h =>
    refine obeys_load hy hp fun q => ?_
    unfold mreadAs
    split
    · split
      · refine obeys_store hy hc hp (obeys_load hy hp fun h => ?_)
        cases h with
        | none => exact .ret hy
        | some h =>
          refine obeys_host hy fun r => ?_
          cases r with
          | some e => exact .ret hy
          | none => exact obeys_readDir hy hc user hp c
      · exact obeys_readDir hy hc user hp c
    · split
      · exact .panic hy
      · refine obeys_load hy hp fun h => ?_
        cases h with
        | none => exact .ret hy
        | some h =>
          refine obeys_host hy fun r => ?_
          obtain ⟨d, e⟩ := r
          cases e <;> exact .ret hy

theorem obeys_write {fid : FID} (hv : V fid) (off : Offset) (b : Bytes) : Obeys V own m x (mwrite fid off b : MMet H _) := by
  refine obeys_withFile hx hv fun p y hy hp => obeys_load hy hp fun h => ?_
  cases h with
  | none => exact .ret hy
  | some h =>
    refine obeys_load hy hp fun h => ?_
    cases h with
    | none => exact .ret hy
    | some h =>
      refine obeys_host hy fun r => ?_
      obtain ⟨d, e⟩ := r
      cases e <;> exact .ret hy

theorem obeys_asReply {p : MMet H α} (f : α → RMsg) (h : Obeys V own m x p) : Obeys V own m x (mAsReply f p) := by
  refine h.bind fun y r hy => ?_
  cases r <;> exact .ret hy

omit hx in
/-- how a call uses the mutex, the table and the structures -/
theorem obeys_call (user rootPath : GoString) (iounit : MaxSize) (m : TMsg) (hv : ∀ f ∈ Spec.fids m, V f) :
    Obeys V own m {} (mcall user rootPath iounit m : MMet H _) := by
  have h0 : ({} : Knows).held = false := rfl
  cases m <;> unfold mcall <;> refine obeys_asReply h0 _ ?_
  · exact obeys_version h0 _ _ _
  · exact obeys_attach h0 _ _ (hv _ (by simp [Spec.fids])) _ _ _
  · exact .ret h0
  · exact obeys_walk h0 _ (hv _ (by simp [Spec.fids])) (hv _ (by simp [Spec.fids])) _
  · exact obeys_open h0 (by exact rfl) _ (hv _ (by simp [Spec.fids])) _
  · exact obeys_create h0 (by exact fun _ h => h) (hv _ (by simp [Spec.fids])) _ _ _
  · exact obeys_stat h0 user (hv _ (by simp [Spec.fids]))
  · exact obeys_wstat h0 (by exact rfl) _ (hv _ (by simp [Spec.fids])) _
  · exact obeys_clunk h0 _ (hv _ (by simp [Spec.fids]))
  · exact obeys_remove h0 _ (hv _ (by simp [Spec.fids]))
  · exact obeys_read h0 (by exact rfl) user (hv _ (by simp [Spec.fids])) _ _
  · exact obeys_write h0 (hv _ (by simp [Spec.fids])) _ _

end
end Ninep.Ufs.Shared
