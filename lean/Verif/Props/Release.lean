import Verif.Props.Serial
/-
A fid of a shared `FileServer` is released once: however clunks and removes of it overlap, with each other and with all other calls,
those that succeed are not more than the calls that have set the fid. And it is given out once: however walks to it overlap, at most one
succeeds until it is released.
-/

namespace Ninep.Ufs.Shared
open Spec

section
variable {ω H : Type} {user rootPath : GoString} {iounit : MaxSize} {host : Host ω H} {w0 : ω}

/-! ### The statement -/

/-- the call sets the fid, if it succeeds -/
def givesFid (f : FID) : TMsg → Bool
  | .attach q => q.SFID = f
  | .walk q => q.NewFID = f
  | _ => false

/-- the call releases the fid -/
def takesFid (f : FID) : TMsg → Bool
  | .clunk q => q.OFID = f
  | .remove q => q.OFID = f
  | _ => false

/-- the call has not set its fid: it returned an error, or the QIDs of a part of the walk only -/
def fruitless : TMsg → Except GoString RMsg → Bool
  | _, .error _ => true
  | .walk q, .ok (.walk r) => r.QIDs.length < q.Paths.length
  | _, _ => false

def isClunk : TMsg → Bool
  | .clunk _ => true
  | _ => false

/-- what the callers have seen -/
structure Tally where
  /-- the calls they are in -/
  now : Nat → Option TMsg := fun _ => none
  /-- how many calls to set the fid they have begun -/
  given : Nat := 0
  /-- how many of these have not set it -/
  back : Nat := 0
  /-- how many of these have -/
  won : Nat := 0
  /-- how many calls to release it they have begun -/
  asked : Nat := 0
  /-- how many of these have succeeded -/
  taken : Nat := 0
  /-- how many clunks of it have failed -/
  refused : Nat := 0

def Tally.add (f : FID) (t : Tally) : SLabel ω H → Tally
  | .begin g m => { t with
      now := fun i => if i = g then some m else t.now i
      given := t.given + (givesFid f m).toNat
      asked := t.asked + (takesFid f m).toNat }
  | .done g r =>
    match t.now g with
    | none => t
    | some m => { t with
        now := fun i => if i = g then none else t.now i
        back := t.back + (givesFid f m && fruitless m r).toNat
        won := t.won + (givesFid f m && !fruitless m r).toNat
        taken := t.taken + (takesFid f m && r.toBool).toNat
        refused := t.refused + (takesFid f m && isClunk m && !r.toBool).toNat }
  | _ => t

def tally (f : FID) (ls : List (SLabel ω H)) : Tally := ls.foldl (Tally.add f) {}

/-- what happens after a state -/
inductive Later (user rootPath : GoString) (iounit : MaxSize) (host : Host ω H) (s0 : SSys ω H) : List (SLabel ω H) → SSys ω H → Prop
  | init : Later user rootPath iounit host s0 [] s0
  | step {ls s s' l} (c : Choice ω) : Later user rootPath iounit host s0 ls s → s.step user rootPath iounit host c = some (s', l) →
      Later user rootPath iounit host s0 (ls ++ [l]) s'

/-- 1 if the fid is in use, 0 if it is not -/
def used (f : FID) (s : SSys ω H) : Nat := (s.mem.files f).isSome.toNat

/-- no call sets or releases the fid -/
def Quiet (f : FID) (s : SSys ω H) : Prop := ∀ g m p, s.run g = some (m, p) → givesFid f m = false ∧ takesFid f m = false

/-- the fid is set by walks that start from another one only, not by attaches -/
def WalksTo (f : FID) (ls : List (SLabel ω H)) : Prop :=
  ∀ g m, SLabel.begin g m ∈ ls → givesFid f m = true → ∃ q, m = .walk q ∧ q.SFID ≠ f

/-! ### What a call does to the entry of a fid -/

/-- nothing yet; holding the mutex, it has found the entry; it has set or deleted the entry -/
inductive Phase where
  | new
  | found
  | fin
deriving DecidableEq

inductive Acct (f : FID) {α : Type} (Q : Phase → α → Prop) : Phase → MProg H α → Prop
  | ret {x a} : Q x a → Acct f Q x (.ret a)
  | panic {x} : Acct f Q x .panic
  | op {x c k} : x ≠ .found → (∀ p, c ≠ .assign f p) → c ≠ .delete f → (∀ a, Acct f Q x (k a)) → Acct f Q x (.op c k)
  | find {k} : Acct f Q .new (k none) → (∀ p, Acct f Q .found (k (some p))) → Acct f Q .new (.op (.lookup f) k)
  | set {p k} : Acct f Q .fin (k ()) → Acct f Q .new (.op (.assign f p) k)
  | del {k} : Acct f Q .fin (k ()) → Acct f Q .found (.op (.delete f) k)
  | host {x c k} : x ≠ .found → (∀ a, Acct f Q x (k a)) → Acct f Q x (.host c k)

theorem Acct.bind {f : FID} {α β : Type} {Q : Phase → α → Prop} {Q' : Phase → β → Prop} {x : Phase} {p : MProg H α} {k : α → MProg H β}
    (h : Acct f Q x p) (hk : ∀ y a, Q y a → Acct f Q' y (k a)) : Acct f Q' x (p.bind k) := by
  induction h with
  | ret h => exact hk _ _ h
  | panic => exact .panic
  | op h1 h2 h3 _ ih => exact .op h1 h2 h3 ih
  | find _ _ ih1 ih2 => exact .find ih1 ih2
  | set _ ih => exact .set ih
  | del _ ih => exact .del ih
  | host h1 _ ih => exact .host h1 ih

/-- what the result says -/
def ends (m : TMsg) (f : FID) (x : Phase) (r : Except GoString RMsg) : Prop :=
  (givesFid f m = true → (x = .fin ∧ fruitless m r = false) ∨ (x = .new ∧ fruitless m r = true)) ∧
  (takesFid f m = true → (x = .fin ∧ (isClunk m = true → r.toBool = true)) ∨ (x = .new ∧ r.toBool = false))

theorem acct_withFile {f fid : FID} {α : Type} {Q : Phase → Except GoString α → Prop} {k : Ptr → MMet H α}
    (hq : ∀ e, Q .new (.error e)) (hk : ∀ p, Acct f Q .new (k p)) : Acct f Q .new (withFile fid k) := by
  refine .op (by simp) (by simp) (by simp) fun _ => .op (by simp) (by simp) (by simp) fun r => .op (by simp) (by simp) (by simp) fun _ => ?_
  cases r with
  | none => exact .ret (hq _)
  | some p => exact hk p

theorem acct_attach (fid afid : FID) (u a : GoString) :
    Acct fid (fun x (r : Except GoString QID) => (x = .fin ∧ r.toBool = true) ∨ (x = .new ∧ r.toBool = false)) .new
      (mattach rootPath fid afid u a : MMet H QID) := by
  simp only [mattach]
  split
  · exact .ret (.inr ⟨rfl, rfl⟩)
  · refine .host (by simp) fun r => ?_
    cases r with
    | error e => exact .ret (.inr ⟨rfl, rfl⟩)
    | ok st =>
      exact .op (by simp) (by simp) (by simp) fun p => .set (.op (by simp) (by simp) (by simp) fun _ => .op (by simp) (by simp) (by simp) fun q =>
        .ret (.inl ⟨rfl, rfl⟩))

/-- the loop walks all names, or stops -/
theorem acct_walkLoop {f : FID} (n : GoString) (ns : List GoString) :
    Acct f (fun x (r : List QID × Option GoString) => x = .new ∧ (r.2 = none ∧ r.1.length < ns.length ∨ r.2.isSome = true ∧ r.1.length = ns.length)) .new
      (MProg.ofProg (pwalkLoop n ns : Prog H _)) := by
  induction ns generalizing n with
  | nil => exact .ret ⟨rfl, .inr ⟨rfl, rfl⟩⟩
  | cons a ns ih =>
    simp only [pwalkLoop, MProg.ofProg]
    refine .host (by simp) fun r => ?_
    cases r with
    | error e => exact .ret ⟨rfl, .inl ⟨rfl, by simp⟩⟩
    | ok st =>
      have e : ∀ (p : Prog H (List QID × Option GoString)) (k : List QID × Option GoString → List QID × Option GoString),
          MProg.ofProg (p.bind fun r => .ret (k r)) = (MProg.ofProg p).bind fun r => (.ret (k r) : MProg H _) := by
        intro p k
        induction p with
        | ret a => rfl
        | panic => rfl
        | call c k ih => simp only [Prog.bind, MProg.ofProg, MProg.bind, ih]
      dsimp only
      rw [e]
      refine (ih _).bind fun y r hr => ?_
      refine .ret ⟨hr.1, ?_⟩
      rcases hr.2 with ⟨h1, h2⟩ | ⟨h1, h2⟩
      · exact .inl ⟨h1, by simp only [List.length_cons]; omega⟩
      · exact .inr ⟨h1, by simp only [List.length_cons]; omega⟩

theorem acct_walk (fid newfid : FID) (ns : List GoString) :
    Acct newfid (fun x (r : Except GoString (List QID)) => (x = .fin ∧ ∃ q, r = .ok q ∧ q.length = ns.length) ∨
      (x = .new ∧ ((∃ e, r = .error e) ∨ ∃ q, r = .ok q ∧ q.length < ns.length))) .new (mwalk fid newfid ns : MMet H _) := by
  refine acct_withFile (fun e => .inr ⟨rfl, .inl ⟨e, rfl⟩⟩) fun p => ?_
  by_cases hns : ns = []
  · subst hns
    rw [if_pos rfl]
    refine .op (by simp) (by simp) (by simp) fun _ => .op (by simp) (by simp) (by simp) fun r => ?_
    cases r with
    | some _ => exact .op (by simp) (by simp) (by simp) fun _ => .ret (.inr ⟨rfl, .inl ⟨_, rfl⟩⟩)
    | none =>
      refine .op (by simp) (by simp) (by simp) fun q => .op (by simp) (by simp) (by simp) fun n => .op (by simp) (by simp) (by simp) fun h =>
        .op (by simp) (by simp) (by simp) fun b => .op (by simp) (by simp) (by simp) fun p' => .set (.op (by simp) (by simp) (by simp) fun _ =>
          .ret (.inl ⟨rfl, _, rfl, rfl⟩))
  · rw [if_neg hns]
    refine .op (by simp) (by simp) (by simp) fun n => (acct_walkLoop n ns).bind fun y r hr => ?_
    obtain ⟨q, o⟩ := r
    obtain ⟨rfl, hr⟩ := hr
    cases o with
    | none =>
      simp only [Option.isSome_none, Bool.false_eq_true, false_and, or_false, true_and] at hr
      dsimp only
      split
      · exact .ret (.inr ⟨rfl, .inl ⟨_, rfl⟩⟩)
      · exact .ret (.inr ⟨rfl, .inr ⟨_, rfl, hr⟩⟩)
    | some path =>
      simp only [reduceCtorEq, false_and, Option.isSome_some, true_and, false_or] at hr
      dsimp only
      refine .op (by simp) (by simp) (by simp) fun _ => ?_
      split
      · refine .op (by simp) (by simp) (by simp) fun r => ?_
        cases r with
        | some _ => exact .op (by simp) (by simp) (by simp) fun _ => .ret (.inr ⟨rfl, .inl ⟨_, rfl⟩⟩)
        | none =>
          exact .op (by simp) (by simp) (by simp) fun p' => .set (.op (by simp) (by simp) (by simp) fun _ => .ret (.inl ⟨rfl, _, rfl, hr⟩))
      · exact .op (by simp) (by simp) (by simp) fun p' => .set (.op (by simp) (by simp) (by simp) fun _ => .ret (.inl ⟨rfl, _, rfl, hr⟩))

theorem acct_clunkFile (fid : FID) :
    Acct fid (fun x (r : Except GoString Ptr) => (x = .fin ∧ ∃ p, r = .ok p) ∨ (x = .new ∧ ∃ e, r = .error e)) .new (mclunkFile fid : MMet H _) := by
  refine .op (by simp) (by simp) (by simp) fun _ => .find ?_ fun p => .del (.op (by simp) (by simp) (by simp) fun h => ?_)
  · exact .op (by simp) (by simp) (by simp) fun _ => .ret (.inr ⟨rfl, _, rfl⟩)
  · cases h with
    | none => exact .op (by simp) (by simp) (by simp) fun _ => .ret (.inl ⟨rfl, _, rfl⟩)
    | some _ =>
      refine .op (by simp) (by simp) (by simp) fun h => ?_
      cases h with
      | none => exact .op (by simp) (by simp) (by simp) fun _ => .op (by simp) (by simp) (by simp) fun _ => .ret (.inl ⟨rfl, _, rfl⟩)
      | some h =>
        refine .host (by simp) fun e => ?_
        cases e with
        | none => exact .op (by simp) (by simp) (by simp) fun _ => .ret (.inl ⟨rfl, _, rfl⟩)
        | some _ => exact .op (by simp) (by simp) (by simp) fun _ => .op (by simp) (by simp) (by simp) fun _ => .ret (.inl ⟨rfl, _, rfl⟩)

theorem acct_clunk (fid : FID) :
    Acct fid (fun x (r : Except GoString Unit) => (x = .fin ∧ r.toBool = true) ∨ (x = .new ∧ r.toBool = false)) .new (mclunk fid : MMet H _) := by
  refine (acct_clunkFile fid).bind fun y r hr => ?_
  rcases hr with ⟨rfl, p, rfl⟩ | ⟨rfl, e, rfl⟩
  · exact .ret (.inl ⟨rfl, rfl⟩)
  · exact .ret (.inr ⟨rfl, rfl⟩)

theorem acct_remove (fid : FID) :
    Acct fid (fun x (r : Except GoString Unit) => x = .fin ∨ (x = .new ∧ r.toBool = false)) .new (mremove fid : MMet H _) := by
  refine (acct_clunkFile fid).bind fun y r hr => ?_
  rcases hr with ⟨rfl, p, rfl⟩ | ⟨rfl, e, rfl⟩
  · refine .op (by simp) (by simp) (by simp) fun n => .host (by simp) fun r => ?_
    cases r with
    | none => exact .ret (.inl rfl)
    | some e => exact .ret (.inl rfl)
  · exact .ret (.inr ⟨rfl, rfl⟩)

theorem acct_call (f : FID) (m : TMsg) (hm : givesFid f m = true ∨ takesFid f m = true) :
    Acct f (ends m f) .new (mcall user rootPath iounit m : MMet H RMsg) := by
  cases m with
  | attach q =>
    simp only [givesFid, takesFid, decide_eq_true_eq, Bool.false_eq_true, or_false] at hm
    subst hm
    refine (acct_attach q.SFID q.AFID q.Uname q.Aname).bind fun y r hr => ?_
    rcases hr with ⟨rfl, h⟩ | ⟨rfl, h⟩ <;> cases r <;> simp [Except.toBool] at h <;> refine .ret ?_ <;> simp [ends, takesFid, fruitless]
  | walk q =>
    simp only [givesFid, takesFid, decide_eq_true_eq, Bool.false_eq_true, or_false] at hm
    subst hm
    refine (acct_walk q.SFID q.NewFID q.Paths).bind fun y r hr => ?_
    rcases hr with ⟨rfl, l, rfl, h⟩ | ⟨rfl, ⟨e, rfl⟩ | ⟨l, rfl, h⟩⟩ <;> refine .ret ?_ <;> simp_all [ends, takesFid, fruitless]
  | clunk q =>
    simp only [givesFid, takesFid, decide_eq_true_eq, Bool.false_eq_true, false_or] at hm
    subst hm
    refine (acct_clunk q.OFID).bind fun y r hr => ?_
    rcases hr with ⟨rfl, h⟩ | ⟨rfl, h⟩ <;> cases r <;> refine .ret ?_ <;> simp_all [ends, givesFid, Except.toBool, isClunk]
  | remove q =>
    simp only [givesFid, takesFid, decide_eq_true_eq, Bool.false_eq_true, false_or] at hm
    subst hm
    refine (acct_remove q.OFID).bind fun y r hr => ?_
    rcases hr with rfl | ⟨rfl, h⟩ <;> cases r <;> refine .ret ?_ <;> simp_all [ends, givesFid, Except.toBool, isClunk]
  | _ => simp [givesFid, takesFid] at hm

/-! ### The books -/

/-- `g` is put into the list, or taken out -/
def put (b : Bool) (g : Nat) (l : List Nat) : List Nat := if b then g :: l.erase g else l.erase g

theorem put_nodup {b : Bool} {g : Nat} {l : List Nat} (h : l.Nodup) : (put b g l).Nodup := by
  unfold put
  split
  · exact List.nodup_cons.2 ⟨fun hm => by simp [h.mem_erase_iff] at hm, h.erase g⟩
  · exact h.erase g

theorem mem_put {b : Bool} {g i : Nat} {l : List Nat} (h : l.Nodup) : i ∈ put b g l ↔ if i = g then b = true else i ∈ l := by
  unfold put
  by_cases e : i = g <;> cases b <;> simp [e, h.mem_erase_iff]

theorem put_length {b : Bool} {g : Nat} {l : List Nat} : (put b g l).length + (decide (g ∈ l)).toNat = l.length + b.toNat := by
  have : (l.erase g).length + (decide (g ∈ l)).toNat = l.length := by
    by_cases e : g ∈ l
    · have := List.length_pos_of_mem e
      simp only [List.length_erase_of_mem e, e, decide_true, Bool.toNat_true]
      omega
    · simp [List.erase_of_not_mem e, e]
  cases b <;> simp only [put, List.length_cons, Bool.toNat_true, Bool.toNat_false, if_true, Bool.false_eq_true, if_false] <;> omega

/-- whether the goroutine is in a call of which `φ` holds -/
def flag (φ : TMsg → Phase → Bool) (r : Option (TMsg × MMet H RMsg)) (x : Phase) : Bool :=
  match r with | some (m, _) => φ m x | none => false

/-- the phases of the calls, the calls of which `φ` holds, and those of which `ψ` holds -/
structure Bal (f : FID) (φ ψ : TMsg → Phase → Bool) (s : SSys ω H) (st : Nat → Phase) (pend hold : List Nat) : Prop where
  np : pend.Nodup
  nh : hold.Nodup
  mp : ∀ g, g ∈ pend ↔ flag φ (s.run g) (st g) = true
  mh : ∀ g, g ∈ hold ↔ flag ψ (s.run g) (st g) = true
  acc : ∀ g m p, s.run g = some (m, p) → givesFid f m = true ∨ takesFid f m = true → Acct f (ends m f) (st g) p ∧
    (st g = .found → s.mem.mu = some g ∧ (s.mem.files f).isSome = true)

theorem bal_upd {f : FID} {φ ψ : TMsg → Phase → Bool} {s s' : SSys ω H} {st : Nat → Phase} {pend hold : List Nat} (B : Bal f φ ψ s st pend hold) (g : Nat)
    (r : Option (TMsg × MMet H RMsg)) (x : Phase) (hr : ∀ i, s'.run i = if i = g then r else s.run i)
    (ha : ∀ m p, r = some (m, p) → givesFid f m = true ∨ takesFid f m = true → Acct f (ends m f) x p ∧
      (x = .found → s'.mem.mu = some g ∧ (s'.mem.files f).isSome = true))
    (ho : ∀ i, i ≠ g → s.mem.mu = some i → (s.mem.files f).isSome = true → s'.mem.mu = some i ∧ (s'.mem.files f).isSome = true) :
    ∃ pend' hold', Bal f φ ψ s' (fun i => if i = g then x else st i) pend' hold' ∧
      pend'.length + (flag φ (s.run g) (st g)).toNat = pend.length + (flag φ r x).toNat ∧
      hold'.length + (flag ψ (s.run g) (st g)).toNat = hold.length + (flag ψ r x).toNat := by
  refine ⟨put (flag φ r x) g pend, put (flag ψ r x) g hold, ⟨put_nodup B.np, put_nodup B.nh, fun i => ?_, fun i => ?_, fun i m p hi hm => ?_⟩, ?_, ?_⟩
  · rw [mem_put B.np, hr]
    by_cases e : i = g
    · simp only [e, if_true]
    · simp only [e, if_false]; exact B.mp i
  · rw [mem_put B.nh, hr]
    by_cases e : i = g
    · simp only [e, if_true]
    · simp only [e, if_false]; exact B.mh i
  · rw [hr] at hi
    by_cases e : i = g
    · simp only [e, if_true] at hi ⊢
      exact ha m p hi hm
    · simp only [e, if_false] at hi ⊢
      obtain ⟨h1, h2⟩ := B.acc i m p hi hm
      exact ⟨h1, fun hx => ho i e (h2 hx).1 (h2 hx).2⟩
  · have := @put_length (flag φ r x) g pend
    rwa [show decide (g ∈ pend) = flag φ (s.run g) (st g) from by rw [Bool.eq_iff_iff, decide_eq_true_eq]; exact B.mp g] at this
  · have := @put_length (flag ψ r x) g hold
    rwa [show decide (g ∈ hold) = flag ψ (s.run g) (st g) from by rw [Bool.eq_iff_iff, decide_eq_true_eq]; exact B.mh g] at this

theorem acct_ret {f : FID} {α : Type} {Q : Phase → α → Prop} {x : Phase} {a : α} (h : Acct f Q x (.ret a : MProg H α)) : Q x a := by
  cases h; assumption

theorem acct_host {f : FID} {α : Type} {Q : Phase → α → Prop} {x : Phase} {c : HCall H} {k : c.Ans → MProg H α} (h : Acct f Q x (.host c k))
    (a : c.Ans) : Acct f Q x (k a) := by
  cases h with
  | host _ hk => exact hk a

theorem gives_takes {f : FID} {m : TMsg} (h : givesFid f m = true) : takesFid f m = false := by
  cases m <;> first | rfl | cases h

/-- an operation of a call that sets or releases the fid -/
theorem acct_act {f : FID} {m : TMsg} {g : Nat} {s mem : SMem H} {x : Phase} {c : MOp H} {a : c.Ans} {k : c.Ans → MMet H RMsg}
    (h : Acct f (ends m f) x (.op c k)) (hf : x = .found → s.mu = some g ∧ (s.files f).isSome = true) (ha : s.act g c = some (mem, a))
    (hl : ∀ i, c = .lookup i → s.mu = some g) (hset : ∀ p, c = .assign f p → givesFid f m = true)
    (hdel : c = .delete f → takesFid f m = true) :
    ∃ y, Acct f (ends m f) y (k a) ∧ (y = .found → mem.mu = some g ∧ (mem.files f).isSome = true) ∧
      ((y = x ∨ y ≠ .fin ∧ x ≠ .fin) ∧ mem.files f = s.files f ∨
        givesFid f m = true ∧ x = .new ∧ y = .fin ∧ (∃ p, c = .assign f p) ∧ (mem.files f).isSome = true ∨
        takesFid f m = true ∧ x = .found ∧ y = .fin ∧ (s.files f).isSome = true ∧ mem.files f = none) := by
  cases h with
  | op h1 h2 h3 hk =>
    refine ⟨x, hk a, fun e => absurd e h1, ?_⟩
    have : mem.files f = s.files f := by
      cases c with
      | lock => simp only [SMem.act] at ha; split at ha <;> cases ha; rfl
      | unlock => simp only [SMem.act] at ha; split at ha <;> cases ha; rfl
      | delete i =>
        cases ha
        exact if_neg fun e => h3 (by rw [e])
      | assign i p =>
        cases ha
        exact if_neg fun e => h2 p (by rw [e])
      | _ => cases ha; rfl
    exact .inl ⟨.inl rfl, this⟩
  | find k1 k2 =>
    cases ha
    cases e : s.files f with
    | none => exact ⟨.new, k1, by simp, .inl ⟨.inl rfl, rfl⟩⟩
    | some p => exact ⟨.found, k2 p, fun _ => ⟨hl f rfl, rfl⟩, .inl ⟨.inr ⟨by simp, by simp⟩, rfl⟩⟩
  | set hk =>
    cases ha
    exact ⟨.fin, hk, by simp, .inr (.inl ⟨hset _ rfl, rfl, rfl, ⟨_, rfl⟩, by simp⟩)⟩
  | del hk =>
    cases ha
    exact ⟨.fin, hk, by simp, .inr (.inr ⟨hdel rfl, rfl, rfl, (hf rfl).2, by simp⟩)⟩

/-- What a step does to the balance: the phase `y` of the goroutine that makes it. -/
theorem bal_step {f : FID} {φ ψ : TMsg → Phase → Bool} {s s' : SSys ω H} {l : SLabel ω H} {c : Choice ω} {st : Nat → Phase} {pend hold : List Nat}
    (hG : ∀ g m p, s.run g = some (m, p) → ∃ x, Obeys (fun _ => True) (fun _ => True) m x p ∧ (x.held = true ↔ s.mem.mu = some g))
    (hφ : ∀ m x, φ m x = true → givesFid f m = true) (hψ : ∀ m x, ψ m x = true → takesFid f m = true)
    (B : Bal f φ ψ s st pend hold) (hs : s.step user rootPath iounit host c = some (s', l)) :
    ∃ st' pend' hold', Bal f φ ψ s' st' pend' hold' ∧
      ((∃ g m, l = .begin g m ∧ s.run g = none ∧ s'.mem = s.mem ∧ pend'.length = pend.length + (φ m .new).toNat ∧
          hold'.length = hold.length + (ψ m .new).toNat) ∨
       (∃ g m r, l = .done g r ∧ s.run g = some (m, .ret r) ∧ s'.mem = s.mem ∧ (givesFid f m = true ∨ takesFid f m = true → ends m f (st g) r) ∧
          pend'.length + (φ m (st g)).toNat = pend.length ∧ hold'.length + (ψ m (st g)).toNat = hold.length) ∨
       (∃ g c m k x y, l = .op g c ∧ s.run g = some (m, .op c k) ∧ givesFid f m = true ∧ x = .new ∧ y = .fin ∧ (∃ p, c = .assign f p) ∧ (s'.mem.files f).isSome = true ∧
          pend'.length + (φ m x).toNat = pend.length + (φ m y).toNat ∧ hold'.length = hold.length) ∨
       (∃ g c m x y, l = .op g c ∧ takesFid f m = true ∧ x = .found ∧ y = .fin ∧ (s.mem.files f).isSome = true ∧ s'.mem.files f = none ∧
          pend'.length = pend.length ∧ hold'.length + (ψ m x).toNat = hold.length + (ψ m y).toNat) ∨
       ((∀ g m, l ≠ .begin g m) ∧ (∀ g r, l ≠ .done g r) ∧ s'.mem.files f = s.mem.files f ∧
        ((∀ m x y, x ≠ .fin → y ≠ .fin → φ m x = φ m y ∧ ψ m x = ψ m y) → pend'.length = pend.length ∧ hold'.length = hold.length))) := by
  have φ0 : ∀ {m}, ¬ givesFid f m = true → ∀ x, φ m x = false := fun h x => by
    cases e : φ _ x with
    | false => rfl
    | true => exact absurd (hφ _ _ e) h
  have ψ0 : ∀ {m}, ¬ takesFid f m = true → ∀ x, ψ m x = false := fun h x => by
    cases e : ψ _ x with
    | false => rfl
    | true => exact absurd (hψ _ _ e) h
  have gt : ∀ {m}, givesFid f m = true → ¬ takesFid f m = true := fun h => by rw [gives_takes h]; simp
  have tg : ∀ {m}, takesFid f m = true → ¬ givesFid f m = true := fun h h' => gt h' h
  rcases step_cases hs with ⟨g, m, rfl, h1, rfl⟩ | ⟨g, m, r, rfl, h1, rfl⟩ | ⟨g, m, c, k, mem, a, rfl, h1, h2, rfl⟩ |
      ⟨g, m, c, k, rfl, h1, rfl⟩ | ⟨w, rfl, rfl⟩
  · obtain ⟨p', h', b1, b2, b3⟩ := bal_upd B (s' := s.setRun g (some (m, mcall user rootPath iounit m))) g (some (m, mcall user rootPath iounit m)) .new
      (fun i => rfl) (fun m' p e hm => by cases e; exact ⟨acct_call f m hm, by simp⟩) (fun i _ e1 e2 => ⟨e1, e2⟩)
    rw [h1] at b2 b3
    exact ⟨_, p', h', b1, .inl ⟨g, m, rfl, h1, rfl, b2, b3⟩⟩
  · obtain ⟨p', h', b1, b2, b3⟩ := bal_upd B (s' := s.setRun g none) g none .new
      (fun i => rfl) (fun m' p e hm => by cases e) (fun i _ e1 e2 => ⟨e1, e2⟩)
    have hacc := B.acc g m _ h1
    rw [h1] at b2 b3
    exact ⟨_, p', h', b1, .inr (.inl ⟨g, m, r, rfl, h1, rfl, fun hm => acct_ret (hacc hm).1, b2, b3⟩)⟩
  · -- a step in memory
    obtain ⟨x, hx1, hx2⟩ := hG g m _ h1
    -- the other goroutines
    have other : ∀ i, i ≠ g → s.mem.mu = some i → (s.mem.files f).isSome = true → mem.mu = some i ∧ (mem.files f).isSome = true := by
      intro i hi hmu hf
      cases hx1 with
      | op hm _ =>
        cases c with
        | lock => simp [SMem.act, hmu] at h2
        | unlock => simp [SMem.act, hmu, hi] at h2
        | delete fid =>
          have := hx2.1 hm.2.1
          rw [hmu] at this
          exact absurd (Option.some.inj this) hi
        | assign fid p =>
          cases h2
          refine ⟨hmu, ?_⟩
          dsimp only
          split
          · rfl
          · exact hf
        | _ => cases h2; exact ⟨hmu, hf⟩
    by_cases hm : givesFid f m = true ∨ takesFid f m = true
    · obtain ⟨hacc, hfd⟩ := B.acc g m _ h1 hm
      cases hx1 with
      | op hop _ =>
        obtain ⟨y, y1, y2, y3⟩ := acct_act hacc hfd h2 (fun i e => hx2.1 (by subst e; exact hop.2))
          (fun p e => by
            subst e
            rcases hop.2.2.2 with ⟨q, rfl, rfl⟩ | ⟨_, q, rfl, rfl, _⟩ <;> simp [givesFid])
          (fun e => by
            subst e
            rcases hop.2.2.2 with ⟨q, rfl, rfl⟩ | ⟨q, rfl, rfl⟩ <;> simp [takesFid])
        obtain ⟨p', h', b1, b2, b3⟩ := bal_upd B (s' := ({ s with mem := mem } : SSys ω H).setRun g (some (m, k a))) g (some (m, k a)) y
          (fun i => rfl) (fun m' p e _ => by cases e; exact ⟨y1, y2⟩) other
        rw [h1] at b2 b3
        simp only [flag] at b2 b3
        refine ⟨_, p', h', b1, ?_⟩
        rcases y3 with ⟨e, hf⟩ | ⟨hg, e1, e2, hp, hf⟩ | ⟨ht, e1, e2, hf, hf'⟩
        · refine .inr (.inr (.inr (.inr ⟨fun _ _ => by simp, fun _ _ => by simp, hf, fun hsame => ?_⟩)))
          have : φ m (st g) = φ m y ∧ ψ m (st g) = ψ m y := by
            rcases e with e | ⟨e, e'⟩
            · rw [e]; exact ⟨rfl, rfl⟩
            · exact hsame m _ _ e' e
          rw [this.1] at b2
          rw [this.2] at b3
          exact ⟨Nat.add_right_cancel b2, Nat.add_right_cancel b3⟩
        · simp only [ψ0 (gt hg), Bool.toNat_false, Nat.add_zero] at b3
          exact .inr (.inr (.inl ⟨g, c, m, k, _, y, rfl, h1, hg, e1, e2, hp, hf, b2, b3⟩))
        · simp only [φ0 (tg ht), Bool.toNat_false, Nat.add_zero] at b2
          exact .inr (.inr (.inr (.inl ⟨g, c, m, _, y, rfl, ht, e1, e2, hf, hf', b2, b3⟩)))
    · obtain ⟨p', h', b1, b2, b3⟩ := bal_upd B (s' := ({ s with mem := mem } : SSys ω H).setRun g (some (m, k a))) g (some (m, k a)) .new
        (fun i => rfl) (fun m' p e h => by cases e; exact absurd h hm) other
      have hg : ¬ givesFid f m = true := fun h => hm (.inl h)
      have htk : ¬ takesFid f m = true := fun h => hm (.inr h)
      have hf : mem.files f = s.mem.files f := by
        cases hx1 with
        | op hop _ =>
          cases c with
          | lock => simp only [SMem.act] at h2; split at h2 <;> cases h2; rfl
          | unlock => simp only [SMem.act] at h2; split at h2 <;> cases h2; rfl
          | delete fid =>
            cases h2
            rcases hop.2.2.2 with ⟨q, rfl, rfl⟩ | ⟨q, rfl, rfl⟩ <;> simp only [takesFid, decide_eq_true_eq] at htk <;> exact if_neg (Ne.symm htk)
          | assign fid p =>
            cases h2
            rcases hop.2.2.2 with ⟨q, rfl, rfl⟩ | ⟨_, q, rfl, rfl, _⟩ <;> simp only [givesFid, decide_eq_true_eq] at hg <;> exact if_neg (Ne.symm hg)
          | _ => cases h2; rfl
      rw [h1] at b2 b3
      simp only [flag, φ0 hg, ψ0 htk, Bool.toNat_false, Nat.add_zero] at b2 b3
      exact ⟨_, p', h', b1, .inr (.inr (.inr (.inr ⟨fun _ _ => by simp, fun _ _ => by simp, hf, fun _ => ⟨b2, b3⟩⟩)))⟩
  · have hacc := B.acc g m _ h1
    obtain ⟨p', h', b1, b2, b3⟩ := bal_upd B (s' := ({ s with world := (host.exec c s.world).1 } : SSys ω H).setRun g (some (m, k (host.exec c s.world).2)))
      g (some (m, k (host.exec c s.world).2)) (st g) (fun i => rfl) (fun m' p e hm => by
        cases e
        obtain ⟨h3, h4⟩ := hacc hm
        exact ⟨acct_host h3 _, h4⟩) (fun i _ e1 e2 => ⟨e1, e2⟩)
    rw [h1] at b2 b3
    simp only [flag, Nat.add_right_cancel_iff] at b2 b3
    exact ⟨_, p', h', b1, .inr (.inr (.inr (.inr ⟨fun _ _ => by simp, fun _ _ => by simp, rfl, fun _ => ⟨b2, b3⟩⟩)))⟩
  · exact ⟨st, pend, hold, ⟨B.np, B.nh, B.mp, B.mh, B.acc⟩, .inr (.inr (.inr (.inr ⟨fun _ _ => by simp, fun _ _ => by simp, rfl, fun _ => ⟨rfl, rfl⟩⟩)))⟩

theorem obeying {ls : List (SLabel ω H)} {s : SSys ω H} (h : SRun user rootPath iounit host w0 ls s) (g : Nat) (m : TMsg) (p : MMet H RMsg)
    (hr : s.run g = some (m, p)) : ∃ x, Obeys (fun _ => True) (fun _ => True) m x p ∧ (x.held = true ↔ s.mem.mu = some g) := by
  obtain ⟨x, h1, h2, _⟩ := (good_any h).busy g m p hr
  exact ⟨x, h1, h2⟩

theorem tally_snoc (f : FID) (ls : List (SLabel ω H)) (l : SLabel ω H) : tally f (ls ++ [l]) = (tally f ls).add f l := by
  simp only [tally, List.foldl_append, List.foldl_cons, List.foldl_nil]

theorem tally_now {ls : List (SLabel ω H)} {s : SSys ω H} (h : SRun user rootPath iounit host w0 ls s) (f : FID) (g : Nat) :
    (tally f ls).now g = (s.run g).map Prod.fst := by
  induction h generalizing g with
  | init => rfl
  | @step ls s s' l c h hs ih =>
    rw [tally_snoc]
    rcases step_cases hs with ⟨g', m, rfl, h1, rfl⟩ | ⟨g', m, r, rfl, h1, rfl⟩ | ⟨g', m, c, k, mem, a, rfl, h1, h2, rfl⟩ |
      ⟨g', m, c, k, rfl, h1, rfl⟩ | ⟨w, rfl, rfl⟩
    · simp only [Tally.add, SSys.setRun]
      split
      · rfl
      · exact ih g
    · have hn : (tally f ls).now g' = some m := by rw [ih, h1]; rfl
      simp only [Tally.add, SSys.setRun, hn]
      split
      · rfl
      · exact ih g
    · simp only [Tally.add, SSys.setRun]
      split
      · rename_i e
        rw [ih, e, h1]; rfl
      · exact ih g
    · simp only [Tally.add, SSys.setRun]
      split
      · rename_i e
        rw [ih, e, h1]; rfl
      · exact ih g
    · exact ih g

theorem quiet_bal {f : FID} {φ ψ : TMsg → Phase → Bool} {s : SSys ω H} (hφ : ∀ m x, φ m x = true → givesFid f m = true)
    (hψ : ∀ m x, ψ m x = true → takesFid f m = true) (hq : Quiet f s) : Bal f φ ψ s (fun _ => .new) [] [] := by
  refine ⟨List.nodup_nil, List.nodup_nil, fun g => ⟨fun h => by simp at h, fun h => ?_⟩, fun g => ⟨fun h => by simp at h, fun h => ?_⟩,
    fun g m p h hm => ?_⟩
  · cases e : s.run g with
    | none => rw [e] at h; cases h
    | some x => rw [e] at h; have := hφ _ _ h; rw [(hq g x.1 x.2 e).1] at this; cases this
  · cases e : s.run g with
    | none => rw [e] at h; cases h
    | some x => rw [e] at h; have := hψ _ _ h; rw [(hq g x.1 x.2 e).2] at this; cases this
  · have := hq g m p h
    rw [this.1, this.2] at hm
    simp at hm

/-- the first balance: the calls that may still set the fid, and those that have deleted its entry -/
def owes (f : FID) (m : TMsg) (x : Phase) : Bool := givesFid f m && x != .fin
def holds (f : FID) (m : TMsg) (x : Phase) : Bool := takesFid f m && x == .fin

/-- the second one: the calls that have set the fid, and those that may still delete its entry -/
def has (f : FID) (m : TMsg) (x : Phase) : Bool := givesFid f m && x == .fin
def wants (f : FID) (m : TMsg) (x : Phase) : Bool := takesFid f m && x != .fin

theorem later_run {ls ls' : List (SLabel ω H)} {s s' : SSys ω H} (h : SRun user rootPath iounit host w0 ls s)
    (h' : Later user rootPath iounit host s ls' s') : SRun user rootPath iounit host w0 (ls ++ ls') s' := by
  induction h' with
  | init => rw [List.append_nil]; exact h
  | step c _ hs ih => rw [← List.append_assoc]; exact .step c ih hs

theorem run_later {ls : List (SLabel ω H)} {s : SSys ω H} (h : SRun user rootPath iounit host w0 ls s) :
    Later user rootPath iounit host { world := w0 } ls s := by
  induction h with
  | init => exact .init
  | step c _ hs ih => exact .step c ih hs

theorem phases {x y : Phase} (hx : x ≠ .fin) (hy : y ≠ .fin) : (x != .fin) = (y != .fin) ∧ (x == .fin) = (y == .fin) := by
  cases x <;> cases y <;> first | exact ⟨rfl, rfl⟩ | exact absurd rfl hx | exact absurd rfl hy

theorem first_balance {ls ls' : List (SLabel ω H)} {s s' : SSys ω H} (h : SRun user rootPath iounit host w0 ls s) {f : FID} (hq : Quiet f s)
    (h' : Later user rootPath iounit host s ls' s') : ∃ st pend hold, Bal f (owes f) (holds f) s' st pend hold ∧
      (tally f (ls ++ ls')).taken + (tally f (ls ++ ls')).back + used f s' + pend.length + hold.length + (tally f ls).given ≤
        (tally f (ls ++ ls')).given + (tally f ls).taken + (tally f ls).back + used f s := by
  have hφ : ∀ m x, owes f m x = true → givesFid f m = true := fun m x e => by simp only [owes, Bool.and_eq_true] at e; exact e.1
  have hψ : ∀ m x, holds f m x = true → takesFid f m = true := fun m x e => by simp only [holds, Bool.and_eq_true] at e; exact e.1
  induction h' with
  | init => exact ⟨_, [], [], quiet_bal hφ hψ hq, by rw [List.append_nil]; simp; omega⟩
  | @step ls' s1 s2 l c h1 hs ih =>
    have r := later_run h h1
    obtain ⟨st, pend, hold, B, hle⟩ := ih
    obtain ⟨st', pend', hold', B', hc⟩ := bal_step (obeying r) hφ hψ B hs
    refine ⟨st', pend', hold', B', ?_⟩
    rw [← List.append_assoc, tally_snoc]
    rcases hc with ⟨g, m, rfl, h2, h3, h4, h5⟩ | ⟨g, m, r', rfl, h2, h3, h4, h5, h6⟩ | ⟨g, c, m, k, x, y, rfl, h2, h3, rfl, rfl, h4, h5, h6, h7⟩ |
      ⟨g, c, m, x, y, rfl, h3, rfl, rfl, h4, h5, h6, h7⟩ | ⟨n1, n2, h3, h4⟩
    · have e1 : owes f m .new = givesFid f m := by unfold owes; cases givesFid f m <;> rfl
      have e2 : holds f m .new = false := by unfold holds; cases takesFid f m <;> rfl
      rw [e1] at h4
      rw [e2] at h5
      simp only [Bool.toNat_false] at h5
      simp only [Tally.add, used, h3] at hle ⊢
      omega
    · have hn : (tally f (ls ++ ls')).now g = some m := by rw [tally_now r, h2]; rfl
      have e1 : (givesFid f m && fruitless m r').toNat ≤ (owes f m (st g)).toNat := by
        unfold owes
        cases hg : givesFid f m with
        | false => simp
        | true => rcases (h4 (.inl hg)).1 hg with ⟨e, e'⟩ | ⟨e, e'⟩ <;> rw [e, e'] <;> decide
      have e2 : (takesFid f m && r'.toBool).toNat ≤ (holds f m (st g)).toNat := by
        unfold holds
        cases hg : takesFid f m with
        | false => simp
        | true =>
          rcases (h4 (.inr hg)).2 hg with ⟨e, _⟩ | ⟨e, e'⟩
          · rw [e]; cases r'.toBool <;> decide
          · rw [e, e']; decide
      simp only [Tally.add, hn, used, h3] at hle ⊢
      omega
    · have e1 : owes f m .new = true := by simp only [owes, h3]; rfl
      have e2 : owes f m .fin = false := by simp only [owes, h3]; rfl
      rw [e1, e2] at h6
      simp only [Bool.toNat_true, Bool.toNat_false] at h6
      simp only [Tally.add, used, h5, Bool.toNat_true] at hle ⊢
      omega
    · have e1 : holds f m .found = false := by simp only [holds, h3]; rfl
      have e2 : holds f m .fin = true := by simp only [holds, h3]; rfl
      rw [e1, e2] at h7
      simp only [Bool.toNat_true, Bool.toNat_false] at h7
      simp only [Tally.add, used, h4, h5, Bool.toNat_true, Option.isSome_none, Bool.toNat_false] at hle ⊢
      omega
    · obtain ⟨h5, h6⟩ := h4 fun m x y hx hy => by
        unfold owes holds
        rw [(phases hx hy).1, (phases hx hy).2]
        exact ⟨rfl, rfl⟩
      have e : (tally f (ls ++ ls')).add f l = tally f (ls ++ ls') := by
        cases l with
        | begin g m => exact absurd rfl (n1 g m)
        | done g r => exact absurd rfl (n2 g r)
        | _ => rfl
      simp only [e, used, h3] at hle ⊢
      omega

theorem second_balance {ls ls' : List (SLabel ω H)} {s s' : SSys ω H} (h : SRun user rootPath iounit host w0 ls s) {f : FID} (hq : Quiet f s)
    (h' : Later user rootPath iounit host s ls' s') (hw : WalksTo f (ls ++ ls')) : ∃ st pend hold, Bal f (has f) (wants f) s' st pend hold ∧
      (tally f (ls ++ ls')).won + (tally f (ls ++ ls')).refused + used f s + pend.length + hold.length + (tally f ls).asked ≤
        (tally f (ls ++ ls')).asked + (tally f ls).won + (tally f ls).refused + used f s' := by
  have hφ : ∀ m x, has f m x = true → givesFid f m = true := fun m x e => by simp only [has, Bool.and_eq_true] at e; exact e.1
  have hψ : ∀ m x, wants f m x = true → takesFid f m = true := fun m x e => by simp only [wants, Bool.and_eq_true] at e; exact e.1
  induction h' with
  | init => exact ⟨_, [], [], quiet_bal hφ hψ hq, by rw [List.append_nil]; simp; omega⟩
  | @step ls' s1 s2 l c h1 hs ih =>
    have r := later_run h h1
    have hw' : WalksTo f (ls ++ ls') := fun g m hm hg => hw g m (by rw [← List.append_assoc]; exact List.mem_append_left _ hm) hg
    obtain ⟨st, pend, hold, B, hle⟩ := ih hw'
    obtain ⟨st', pend', hold', B', hc⟩ := bal_step (obeying r) hφ hψ B hs
    refine ⟨st', pend', hold', B', ?_⟩
    rw [← List.append_assoc, tally_snoc]
    rcases hc with ⟨g, m, rfl, h2, h3, h4, h5⟩ | ⟨g, m, r', rfl, h2, h3, h4, h5, h6⟩ | ⟨g, c, m, k, x, y, rfl, h2, h3, rfl, rfl, ⟨p, rfl⟩, h5, h6, h7⟩ |
      ⟨g, c, m, x, y, rfl, h3, rfl, rfl, h4, h5, h6, h7⟩ | ⟨n1, n2, h3, h4⟩
    · have e1 : has f m .new = false := by unfold has; cases givesFid f m <;> rfl
      have e2 : wants f m .new = takesFid f m := by unfold wants; cases takesFid f m <;> rfl
      rw [e1] at h4
      rw [e2] at h5
      simp only [Bool.toNat_false] at h4
      simp only [Tally.add, used, h3] at hle ⊢
      omega
    · have hn : (tally f (ls ++ ls')).now g = some m := by rw [tally_now r, h2]; rfl
      have e1 : (givesFid f m && !fruitless m r').toNat ≤ (has f m (st g)).toNat := by
        unfold has
        cases hg : givesFid f m with
        | false => simp
        | true => rcases (h4 (.inl hg)).1 hg with ⟨e, e'⟩ | ⟨e, e'⟩ <;> rw [e, e'] <;> decide
      have e2 : (takesFid f m && isClunk m && !r'.toBool).toNat ≤ (wants f m (st g)).toNat := by
        unfold wants
        cases hg : takesFid f m with
        | false => simp
        | true =>
          rcases (h4 (.inr hg)).2 hg with ⟨e, e'⟩ | ⟨e, e'⟩
          · rw [e]
            cases hcl : isClunk m with
            | false => simp
            | true => rw [e' hcl]; decide
          · rw [e, e']; cases isClunk m <;> decide
      simp only [Tally.add, hn, used, h3] at hle ⊢
      omega
    · -- the fid is not in use
      have hfree : s1.mem.files f = none := by
        obtain ⟨x, hx1, _, hx3⟩ := (good_any r).busy g m _ h2
        have hb := begun (running r h2)
        obtain ⟨q, rfl, hne⟩ := hw' g m hb h3
        cases hx1 with
        | op hop _ =>
          rcases hop.2.2.2 with ⟨q', e, _⟩ | ⟨_, q', e, e', h8⟩
          · cases e
          · cases e
            rcases h8 with h8 | h8
            · exact absurd h8 hne
            · have := (hx3 _ _ h8).2 fun g' q' hb' e => by
                obtain ⟨_, e', _⟩ := hw' g' _ hb' (by simp [givesFid, e])
                cases e'
              simpa using this
      have e1 : has f m .new = false := by simp only [has, h3]; rfl
      have e2 : has f m .fin = true := by simp only [has, h3]; rfl
      rw [e1, e2] at h6
      simp only [Bool.toNat_true, Bool.toNat_false] at h6
      simp only [Tally.add, used, h5, hfree, Option.isSome_none, Bool.toNat_true, Bool.toNat_false] at hle ⊢
      omega
    · have e1 : wants f m .found = true := by simp only [wants, h3]; rfl
      have e2 : wants f m .fin = false := by simp only [wants, h3]; rfl
      rw [e1, e2] at h7
      simp only [Bool.toNat_true, Bool.toNat_false] at h7
      simp only [Tally.add, used, h4, h5, Bool.toNat_true, Option.isSome_none, Bool.toNat_false] at hle ⊢
      omega
    · obtain ⟨h5, h6⟩ := h4 fun m x y hx hy => by
        unfold has wants
        rw [(phases hx hy).1, (phases hx hy).2]
        exact ⟨rfl, rfl⟩
      have e : (tally f (ls ++ ls')).add f l = tally f (ls ++ ls') := by
        cases l with
        | begin g m => exact absurd rfl (n1 g m)
        | done g r => exact absurd rfl (n2 g r)
        | _ => rfl
      simp only [e, used, h3] at hle ⊢
      omega

/-! ### The theorems -/

theorem init_quiet (f : FID) : Quiet f ({ world := w0 } : SSys ω H) := fun g m p h => by cases h

/-- The calls that have released a fid, and the fid if it is in use, are not more than the calls that have set it or may still do so. -/
theorem C127_released {ls : List (SLabel ω H)} {s : SSys ω H} (h : SRun user rootPath iounit host w0 ls s) (f : FID) :
    (tally f ls).taken + (tally f ls).back + used f s ≤ (tally f ls).given := by
  obtain ⟨_, _, _, _, hle⟩ := first_balance (ls := []) (host := host) (.init (w0 := w0)) (init_quiet f) (run_later h)
  have h0 : used f ({ world := w0 } : SSys ω H) = 0 := rfl
  have h1 : (tally f ([] : List (SLabel ω H))).taken = 0 := rfl
  have h2 : (tally f ([] : List (SLabel ω H))).back = 0 := rfl
  have h3 : (tally f ([] : List (SLabel ω H))).given = 0 := rfl
  rw [List.nil_append] at hle
  omega

/-- From a state on in which no call sets or releases the fid, and as long as no call begins that sets it: however many clunks and
removes of it are made, at most one succeeds; none does, if the fid is not in use. -/
theorem C127_once {ls ls' : List (SLabel ω H)} {s s' : SSys ω H} (h : SRun user rootPath iounit host w0 ls s) {f : FID} (hq : Quiet f s)
    (h' : Later user rootPath iounit host s ls' s') (hn : ∀ g m, SLabel.begin g m ∈ ls' → givesFid f m = false) :
    (tally f (ls ++ ls')).taken + used f s' ≤ (tally f ls).taken + used f s := by
  have : (tally f (ls ++ ls')).given = (tally f ls).given ∧ (tally f ls).back ≤ (tally f (ls ++ ls')).back := by
    clear hq
    induction h' with
    | init => simp
    | @step ls' _ _ l _ _ _ ih =>
      have := ih fun g m hm => hn g m (List.mem_append_left _ hm)
      rw [← List.append_assoc, tally_snoc]
      cases l with
      | begin g m => simp only [Tally.add, hn g m (by simp), Bool.toNat_false]; omega
      | done g r => simp only [Tally.add]; split <;> (try dsimp only) <;> omega
      | _ => exact this
  obtain ⟨_, _, _, _, hle⟩ := first_balance h hq h'
  omega

/-- A fid that is set by walks only: the walks that have succeeded are not more than the calls that release it, without those clunks
that have failed, and one more if the fid is in use. -/
theorem C127_walks {ls : List (SLabel ω H)} {s : SSys ω H} (h : SRun user rootPath iounit host w0 ls s) {f : FID} (hw : WalksTo f ls) :
    (tally f ls).won + (tally f ls).refused ≤ (tally f ls).asked + used f s := by
  obtain ⟨_, _, _, _, hle⟩ := second_balance (ls := []) (host := host) (.init (w0 := w0)) (init_quiet f) (run_later h) (by rwa [List.nil_append])
  have h1 : (tally f ([] : List (SLabel ω H))).won = 0 := rfl
  have h2 : (tally f ([] : List (SLabel ω H))).refused = 0 := rfl
  rw [List.nil_append] at hle
  omega

/-- … From a state on in which no call sets or releases the fid, and as long as no call begins that releases it: however many walks to it
are made, at most one succeeds; none does, if the fid is in use. -/
theorem C127_one_walk {ls ls' : List (SLabel ω H)} {s s' : SSys ω H} (h : SRun user rootPath iounit host w0 ls s) {f : FID} (hq : Quiet f s)
    (h' : Later user rootPath iounit host s ls' s') (hw : WalksTo f (ls ++ ls')) (hn : ∀ g m, SLabel.begin g m ∈ ls' → takesFid f m = false) :
    (tally f (ls ++ ls')).won + used f s ≤ (tally f ls).won + used f s' ∧ used f s' ≤ 1 := by
  refine ⟨?_, by unfold used; cases (s'.mem.files f).isSome <;> decide⟩
  have : (tally f (ls ++ ls')).asked = (tally f ls).asked ∧ (tally f ls).refused ≤ (tally f (ls ++ ls')).refused := by
    clear hw hq
    induction h' with
    | init => simp
    | @step ls' _ _ l _ _ _ ih =>
      have := ih fun g m hm => hn g m (List.mem_append_left _ hm)
      rw [← List.append_assoc, tally_snoc]
      cases l with
      | begin g m => simp only [Tally.add, hn g m (by simp), Bool.toNat_false]; omega
      | done g r => simp only [Tally.add]; split <;> (try dsimp only) <;> omega
      | _ => exact this
  obtain ⟨_, _, _, _, hle⟩ := second_balance h hq h' hw
  omega

end

/-! ### Examples -/

open Mem

/-- the steps of goroutine `g` and `g'` in turn -/
def inTurn (g g' n : Nat) : List (Choice World) := (List.replicate n [.step g, .step g']).flatten

/-- goroutine 0 attaches and walks -/
def before : List (Choice World) := whole 0 (attachTo 0) ++ whole 0 (.walk { SFID := 0, NewFID := 1, Paths := [[102]] })

/-- … and then two goroutines clunk the fid, and another one removes it. -/
def threeClunks : List (Choice World) :=
  [.begin 0 (.clunk { OFID := 1 }), .begin 1 (.clunk { OFID := 1 }), .begin 2 (.remove { OFID := 1 })] ++ inTurn 0 1 20 ++ go 2 20

/-- goroutine 0 clunks the fid, walks to it again, and clunks it again -/
def again : List (Choice World) :=
  whole 0 (.clunk { OFID := 1 }) ++ whole 0 (.walk { SFID := 0, NewFID := 1, Paths := [[102]] }) ++ whole 0 (.clunk { OFID := 1 })

theorem drive_later (cs : List (Choice World)) (ls ls' : List (SLabel World Nat)) (s0 s : SSys World Nat)
    (h : Later [103] [47, 120] 8192 host s0 ls' s) : ∃ ls2, (drive [103] [47, 120] 8192 host (ls ++ ls', s) cs).1 = ls ++ ls2 ∧
      Later [103] [47, 120] 8192 host s0 ls2 (drive [103] [47, 120] 8192 host (ls ++ ls', s) cs).2 := by
  induction cs generalizing ls' s with
  | nil => exact ⟨ls', rfl, h⟩
  | cons c cs ih =>
    simp only [drive]
    split
    · exact ih ls' s h
    · rename_i s' l hs
      rw [List.append_assoc]
      exact ih (ls' ++ [l]) s' (.step c h hs)

/-- a check that no call is made at the end of the steps -/
def restBy (n : Nat) (ls : List (SLabel World Nat)) : Bool :=
  (ls.all fun l => match l with | .begin g _ => g < n | _ => true) && (List.range n).all fun g => (inCall g ls).isNone

theorem restBy_rest {n : Nat} {ls : List (SLabel World Nat)} {s : SSys World Nat} (h : SRun [103] [47, 120] 8192 host world0 ls s)
    (hr : restBy n ls = true) (g : Nat) : s.run g = none := by
  cases e : s.run g with
  | none => rfl
  | some x =>
    have hin : inCall g ls = some x.1 := by rw [inCall_run h, e]; rfl
    simp only [restBy, Bool.and_eq_true, List.all_eq_true, List.mem_range] at hr
    have h1 := hr.1 _ (inCall_begun hin)
    have h2 := hr.2 g (by simpa using h1)
    rw [hin] at h2
    cases h2

/-- a check that no call sets the fid -/
def noGift (f : FID) (ls : List (SLabel World Nat)) : Bool := ls.all fun l => match l with | .begin _ m => !givesFid f m | _ => true

theorem noGift_none {f : FID} {ls : List (SLabel World Nat)} (h : noGift f ls = true) (g : Nat) (m : TMsg) (hm : SLabel.begin g m ∈ ls) :
    givesFid f m = false := by
  simp only [noGift, List.all_eq_true] at h
  simpa using h _ hm

/-- a check that no call releases the fid -/
def noRelease (f : FID) (ls : List (SLabel World Nat)) : Bool := ls.all fun l => match l with | .begin _ m => !takesFid f m | _ => true

theorem noRelease_none {f : FID} {ls : List (SLabel World Nat)} (h : noRelease f ls = true) (g : Nat) (m : TMsg) (hm : SLabel.begin g m ∈ ls) :
    takesFid f m = false := by
  simp only [noRelease, List.all_eq_true] at h
  simpa using h _ hm

/-- what happens after `before` -/
def after (cs : List (Choice World)) : List (SLabel World Nat) × SSys World Nat :=
  drive [103] [47, 120] 8192 host ((shared before).1, (shared before).2) cs

/-- the hypotheses of `C127_once`: the fid is in use, three calls release it at the same time, and one succeeds -/
example : ∃ ls s ls' s', SRun [103] [47, 120] 8192 host world0 ls s ∧
    Quiet 1 s ∧ Later [103] [47, 120] 8192 host s ls' s' ∧
    (∀ g m, SLabel.begin g m ∈ ls' → givesFid 1 m = false) ∧ used 1 s = 1 ∧ (s'.run 0).isNone ∧ (s'.run 1).isNone ∧ (s'.run 2).isNone ∧
    (tally 1 ls).taken = 0 ∧ (tally 1 (ls ++ ls')).taken = 1 := by
  obtain ⟨ls', e, h⟩ := drive_later threeClunks (shared before).1 [] (shared before).2 (shared before).2 .init
  rw [List.append_nil] at e h
  have hl : ls' = (after threeClunks).1.drop (shared before).1.length := by
    rw [show (after threeClunks).1 = (shared before).1 ++ ls' from e, List.drop_left]
  refine ⟨_, _, ls', _, shared_run before, fun g m p hr => ?_, h, noGift_none (by rw [hl]; decide +kernel), by decide +kernel, by decide +kernel,
    by decide +kernel, by decide +kernel, by decide +kernel, ?_⟩
  · rw [restBy_rest (n := 1) (shared_run before) (by decide +kernel) g] at hr
    cases hr
  · rw [← e]
    decide +kernel

/-- A fid that is set again can be released again: two releases succeed, and the fid was set twice. -/
example : ∃ ls s, SRun [103] [47, 120] 8192 host world0 ls s ∧ (tally 1 ls).taken = 2 ∧ (tally 1 ls).given = 2 ∧ (tally 1 ls).back = 0 :=
  ⟨_, _, shared_run (before ++ again), by decide +kernel⟩

/-- goroutines 0 and 1 walk to the same fid at the same time -/
def twoWalks : List (Choice World) :=
  [.begin 0 (.walk { SFID := 0, NewFID := 2 }), .begin 1 (.walk { SFID := 1, NewFID := 2 })] ++ inTurn 0 1 20

/-- a check for `WalksTo` -/
def walksBy (f : FID) (ls : List (SLabel World Nat)) : Bool :=
  ls.all fun l => match l with | .begin _ m => !givesFid f m || (match m with | .walk q => q.SFID != f | _ => false) | _ => true

theorem walksBy_walks {f : FID} {ls : List (SLabel World Nat)} (h : walksBy f ls = true) : WalksTo f ls := by
  intro g m hm hg
  simp only [walksBy, List.all_eq_true] at h
  have := h _ hm
  simp only [hg, Bool.not_true, Bool.false_or] at this
  cases m with
  | walk q => exact ⟨q, rfl, by simpa using this⟩
  | _ => cases this

/-- the hypotheses of `C127_walks` -/
example : ∃ ls s, SRun [103] [47, 120] 8192 host world0 ls s ∧ WalksTo 1 ls ∧ (tally 1 ls).won = 2 ∧ (tally 1 ls).refused = 1 ∧
    (tally 1 ls).asked = 3 ∧ used 1 s = 0 :=
  ⟨_, _, shared_run (before ++ again ++ whole 1 (.clunk { OFID := 1 })), walksBy_walks (by decide +kernel), by decide +kernel⟩

/-- the hypotheses of `C127_one_walk`: two goroutines walk to the same fid at the same time, and one succeeds -/
example : ∃ ls s ls' s', SRun [103] [47, 120] 8192 host world0 ls s ∧ Quiet 2 s ∧ Later [103] [47, 120] 8192 host s ls' s' ∧ WalksTo 2 (ls ++ ls') ∧
    (∀ g m, SLabel.begin g m ∈ ls' → takesFid 2 m = false) ∧ (tally 2 (ls ++ ls')).given = 2 ∧ (s'.run 0).isNone ∧ (s'.run 1).isNone ∧
    (tally 2 ls).won = 0 ∧ (tally 2 (ls ++ ls')).won = 1 := by
  obtain ⟨ls', e, h⟩ := drive_later twoWalks (shared before).1 [] (shared before).2 (shared before).2 .init
  rw [List.append_nil] at e h
  have hl : ls' = (after twoWalks).1.drop (shared before).1.length := by
    rw [show (after twoWalks).1 = (shared before).1 ++ ls' from e, List.drop_left]
  refine ⟨_, _, ls', _, shared_run before, fun g m p hr => ?_, h, by rw [← e]; exact walksBy_walks (by decide +kernel),
    noRelease_none (by rw [hl]; decide +kernel), by rw [← e]; decide +kernel, by decide +kernel, by decide +kernel, by decide +kernel, ?_⟩
  · rw [restBy_rest (n := 1) (shared_run before) (by decide +kernel) g] at hr
    cases hr
  · rw [← e]
    decide +kernel

/-- `WalksTo` is needed: two attaches to the same fid succeed, and no call releases it. -/
theorem C127_attach_counterexample : ∃ ls s, SRun [103] [47, 120] 8192 host world0 ls s ∧ (tally 0 ls).won = 2 ∧ (tally 0 ls).asked = 0 ∧ used 0 s = 1 :=
  ⟨_, _, shared_run (whole 0 (attachTo 0) ++ whole 1 (attachTo 0)), by decide +kernel⟩

end Ninep.Ufs.Shared
