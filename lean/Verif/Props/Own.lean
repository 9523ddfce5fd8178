import Verif.Props.Means
import Verif.Props.Process

set_option linter.unusedSimpArgs false
set_option linter.unusedVariables false

/-!
# A connection uses only files that it has opened itself (C101)
-/

namespace Ninep.Ufs
open Spec

variable {ω H : Type}

/-! ### the statement -/

/-- the open file that a call works on -/
def HCall.uses : HCall H → Option H
  | .close h => some h
  | .sync h => some h
  | .seek0 h => some h
  | .readdir1 h => some h
  | .readAt h _ _ => some h
  | .writeAt h _ _ => some h
  | _ => none

/-- the open file that the answer to a call is -/
def Ev.gives : Ev H → Option H
  | ⟨.openFile _ _ _, .ok h⟩ => some h
  | _ => none

/-- connection `i` has opened a file in these steps, and `h` is what it got -/
def HasOpened (i : Nat) (ls : List (Label ω H)) (h : H) : Prop := ∃ e, Label.call i e ∈ ls ∧ e.gives = some h

/-- no two calls return the same open file.  In Go they are pointers that `os.OpenFile` has made. -/
def OpenedApart (ls : List (Label ω H)) : Prop :=
  ∀ l1 i e l2 j e' l3 h, ls = l1 ++ .call i e :: (l2 ++ .call j e' :: l3) → e.gives = some h → e'.gives ≠ some h

/-! ### programs -/

/-- Every call works on an open file of `S`, to which those are added that calls return; the result has `Q` with what
`S` is then. -/
def Prog.Keeps {α : Type} (Q : (H → Prop) → α → Prop) : (H → Prop) → Prog H α → Prop
  | S, .ret a => Q S a
  | _, .panic => True
  | S, .call c k => (∀ h, c.uses = some h → S h) ∧ ∀ a, (k a).Keeps Q fun h => S h ∨ Ev.gives ⟨c, a⟩ = some h

theorem Prog.Keeps.mono {α : Type} {Q Q' : (H → Prop) → α → Prop} {S S' : H → Prop} {p : Prog H α} (hS : ∀ h, S h → S' h)
    (hQ : ∀ S S' a, (∀ h, S h → S' h) → Q S a → Q' S' a) (hp : p.Keeps Q S) : p.Keeps Q' S' := by
  induction p generalizing S S' with
  | ret a => exact hQ _ _ _ hS hp
  | panic => trivial
  | call c k ih =>
    refine ⟨fun h hh => hS h (hp.1 h hh), fun a => ih a (fun h hh => ?_) (hp.2 a)⟩
    exact hh.imp_left (hS h)

theorem Prog.Keeps.bind {α β : Type} {Q : (H → Prop) → α → Prop} {R : (H → Prop) → β → Prop} {S : H → Prop} {p : Prog H α}
    {f : α → Prog H β} (hp : p.Keeps Q S) (hf : ∀ S a, Q S a → (f a).Keeps R S) : (p.bind f).Keeps R S := by
  induction p generalizing S with
  | ret a => exact hf _ _ hp
  | panic => trivial
  | call c k ih => exact ⟨hp.1, fun a => ih a (hp.2 a)⟩

/-- the files that fids have open are in `S` -/
def HeldIn (S : H → Prop) (o : Obj H) : Prop := ∀ i f h, o.files i = some f → f.file = some h → S h

theorem HeldIn.mono {S S' : H → Prop} {o : Obj H} (hS : ∀ h, S h → S' h) (h : HeldIn S o) : HeldIn S' o :=
  fun i f x hf hx => hS x (h i f x hf hx)

theorem HeldIn.set {S : H → Prop} {o : Obj H} (ho : HeldIn S o) (i : FID) {f : File H} (hf : ∀ h, f.file = some h → S h) :
    HeldIn S (o.set i f) := by
  intro j g h hg hh
  by_cases hj : j = i
  · subst hj; rw [set_same, Option.some.injEq] at hg; subst hg; exact hf h hh
  · rw [set_other _ _ hj] at hg; exact ho j g h hg hh

theorem HeldIn.del {S : H → Prop} {o : Obj H} (ho : HeldIn S o) (i : FID) : HeldIn S (o.del i) := by
  intro j g h hg hh
  by_cases hj : j = i
  · subst hj; simp [State.del] at hg
  · simp only [State.del, if_neg hj] at hg; exact ho j g h hg hh

/-- the program only uses files of `S` and files that it opens, and leaves an object with such files -/
abbrev KeepsTo (S : H → Prop) {α : Type} (p : Prog H (Obj H × α)) : Prop := p.Keeps (fun S r => HeldIn S r.1) S

section
variable {S : H → Prop} {o : Obj H} (ho : HeldIn S o)
include ho

theorem keeps_version (m v) : KeepsTo S (pversion m v o) := by
  unfold pversion; split <;> exact ho

theorem HeldIn.or {S' : H → Prop} : HeldIn (fun h => S h ∨ S' h) o := ho.mono fun _ => .inl

theorem keeps_attach (a b c d) : KeepsTo S (pattach a b c d o) := by
  unfold pattach
  split
  · exact ho
  · refine ⟨nofun, fun r => ?_⟩
    cases r with
    | error e => exact ho.or
    | ok st => exact ho.or.set _ nofun

omit ho in
theorem keeps_walkLoop (p : GoString) (names : List GoString) (h0 : HeldIn S o) :
    (pwalkLoop (H := H) p names).Keeps (fun S _ => HeldIn S o) S := by
  induction names generalizing p S with
  | nil => exact h0
  | cons n ns ih =>
    refine ⟨nofun, fun r => ?_⟩
    cases r with
    | error e => exact h0.or
    | ok st => exact (ih _ h0.or).bind fun _ r hr => hr

theorem keeps_walk (i j names) : KeepsTo S (pwalk i j names o) := by
  unfold pwalk
  split
  · exact ho
  · rename_i f hf
    split
    · split
      · exact ho
      · exact ho.set _ fun h hh => ho _ _ _ hf hh
    · refine (keeps_walkLoop _ _ ho).bind fun S' r hr => ?_
      obtain ⟨q, r⟩ := r
      cases r with
      | none => dsimp only; split <;> exact hr
      | some p' => dsimp only; split
                   · exact hr
                   · exact hr.set _ nofun

theorem keeps_open (i m) : KeepsTo S (popen i m o) := by
  unfold popen
  split
  · exact ho
  · rename_i f hf
    refine ⟨nofun, fun r => ?_⟩
    cases r with
    | error e => exact ho.or.set _ nofun
    | ok h => exact ho.or.set _ fun h' hh => .inr hh

theorem keeps_create (i n pm md) : KeepsTo S (pcreate i n pm md o) := by
  unfold pcreate
  split
  · exact ho
  · rename_i f hf
    split
    · exact ho
    · dsimp only
      split
      · refine ⟨nofun, fun _ => ⟨nofun, fun r => ?_⟩⟩
        cases r with
        | error e => exact ho.or.or
        | ok st => exact ho.or.or.set _ fun h hh => .inl (.inl (ho _ _ _ hf hh))
      · refine ⟨nofun, fun r => ?_⟩
        cases r with
        | error e => exact ho.or
        | ok h =>
          refine ⟨nofun, fun r => ?_⟩
          cases r with
          | error e => exact ho.or.or
          | ok st => exact ho.or.or.set _ fun h hh => .inl (.inr hh)

theorem keeps_clunkFile (i) {f : File H} (hf : ∀ h, f.file = some h → S h) : (pclunkFile i o f).Keeps (fun S r => HeldIn S r) S := by
  unfold pclunkFile
  split
  · exact ho.del _
  · rename_i h hh
    exact ⟨fun h' e => by cases e; exact hf _ hh, fun _ => ho.or.del _⟩

theorem keeps_clunk (i) : KeepsTo S (pclunk i o) := by
  unfold pclunk
  split
  · exact ho
  · rename_i f hf
    exact (keeps_clunkFile ho i fun h hh => ho _ _ _ hf hh).bind fun _ _ h => h

theorem keeps_remove (i) : KeepsTo S (premove i o) := by
  unfold premove
  split
  · exact ho
  · rename_i f hf
    refine (keeps_clunkFile ho i fun h hh => ho _ _ _ hf hh).bind fun _ o' h => ⟨nofun, fun r => ?_⟩
    cases r <;> exact h.or

theorem keeps_stat (user i) : KeepsTo S (pstat user i o) := by
  unfold pstat
  split
  · exact ho
  · refine ⟨nofun, fun r => ?_⟩
    cases r <;> exact ho.or

omit ho in
theorem keeps_andThen {p : Prog H (Obj H × Option GoString)} {k : Obj H → Prog H (Obj H × Option GoString)} {f : File H}
    (hp : p.Keeps (fun S r => HeldIn S r.1 ∧ ∀ h, f.file = some h → S h) S)
    (hk : ∀ S o, HeldIn S o → (∀ h, f.file = some h → S h) → (k o).Keeps (fun S r => HeldIn S r.1 ∧ ∀ h, f.file = some h → S h) S) :
    (pAndThen p k).Keeps (fun S r => HeldIn S r.1 ∧ ∀ h, f.file = some h → S h) S := by
  refine hp.bind fun S' r hr => ?_
  obtain ⟨o, e⟩ := r
  cases e with
  | none => exact hk _ _ hr.1 hr.2
  | some e => exact hr

theorem keeps_wstat (i b) : KeepsTo S (pwstat i b o) := by
  unfold pwstat
  split
  · exact ho
  · rename_i f hf
    have hff : ∀ h, f.file = some h → S h := fun h hh => ho _ _ _ hf hh
    split
    · trivial
    · exact ho
    · rename_i dir t b hd
      dsimp only
      generalize hpath : wstatPath f dir o = path
      refine Prog.Keeps.bind (Q := fun S r => HeldIn S r.1 ∧ ∀ h, f.file = some h → S h) ?_ fun _ r hr => ?_
      · have up : ∀ {S S' : H → Prop} {o : Obj H}, HeldIn S o → (∀ h, f.file = some h → S h) →
            HeldIn (fun h => S h ∨ S' h) o ∧ ∀ h, f.file = some h → S h ∨ S' h :=
          fun h1 h2 => ⟨h1.or, fun h hh => .inl (h2 h hh)⟩
        refine keeps_andThen ?_ fun S o ho hff => keeps_andThen ?_ fun S o ho hff => keeps_andThen ?_ fun S o ho hff =>
          keeps_andThen ?_ fun S o ho hff => keeps_andThen ?_ fun S o ho hff => ?_
        · unfold pwstatMode
          split
          · exact ⟨nofun, fun _ => up ho hff⟩
          · exact ⟨ho, hff⟩
        · unfold pwstatUser
          split <;> exact ⟨ho, hff⟩
        · unfold pwstatName
          split
          · refine ⟨nofun, fun r => ?_⟩
            dsimp only
            split
            · exact up ho hff
            · refine ⟨nofun, fun r => ?_⟩
              cases r with
              | none => exact ⟨ho.or.or.set _ fun h hh => .inl (.inl (hff h hh)), fun h hh => .inl (.inl (hff h hh))⟩
              | some e => exact up ho.or fun h hh => .inl (hff h hh)
          · exact ⟨ho, hff⟩
        · unfold pwstatLength
          split
          · exact ⟨nofun, fun _ => up ho hff⟩
          · exact ⟨ho, hff⟩
        · unfold pwstatTimes
          split
          · split
            · refine ⟨nofun, fun r => ?_⟩
              cases r with
              | error e => exact up ho hff
              | ok st => exact ⟨nofun, fun _ => up ho.or fun h hh => .inl (hff h hh)⟩
            · exact ⟨nofun, fun _ => up ho hff⟩
          · exact ⟨ho, hff⟩
        · unfold pwstatSync
          split
          · rename_i x hx
            split
            · exact ⟨ho, hff⟩
            · exact ⟨fun h e => by cases e; exact hff _ hx, fun _ => up ho hff⟩
          · exact ⟨ho, hff⟩
      · obtain ⟨o, e⟩ := r
        cases e <;> exact hr.1

theorem keeps_readDir (user i) (f : File H) (hf : ∀ h, f.file = some h → S h) (x c) (hx : S x) : KeepsTo S (preadDir user i f x c o) := by
  unfold preadDir
  dsimp only
  split
  · exact (ho.set _ (by exact hf)).set _ (by exact hf)
  · refine ⟨fun h e => by cases e; exact hx, fun r => ?_⟩
    have h1 : ∀ {S' : H → Prop}, HeldIn (fun h => S h ∨ S' h) (o.set i { f with oflow := [] }) :=
      fun {_} => HeldIn.or (ho.set _ (by exact hf))
    cases r with
    | eof => exact h1
    | fail e => exact h1
    | entry st => dsimp only; split <;> exact h1

theorem keeps_read (user i off c) : KeepsTo S (pread user i off c o) := by
  unfold pread
  split
  · exact ho
  · rename_i f hf
    have hff : ∀ h, f.file = some h → S h := fun h hh => ho _ _ _ hf hh
    split
    · exact ho
    · rename_i x hx
      split
      · split
        · refine ⟨fun h e => by cases e; exact hff _ hx, fun r => ?_⟩
          have h1 : ∀ {S' : H → Prop}, HeldIn (fun h => S h ∨ S' h) (o.set i { f with oflow := [] }) :=
            fun {_} => HeldIn.or (ho.set _ (by exact hff))
          cases r with
          | some e => exact h1
          | none => exact keeps_readDir h1 _ _ { f with oflow := [] } (fun h hh => .inl (hff h hh)) _ _ (.inl (hff _ hx))
        · exact keeps_readDir ho _ _ _ hff _ _ (hff _ hx)
      · split
        · trivial
        · refine ⟨fun h e => by cases e; exact hff _ hx, fun r => ?_⟩
          obtain ⟨d, e⟩ := r
          cases e <;> exact ho.or

theorem keeps_write (i off b) : KeepsTo S (pwrite i off b o) := by
  unfold pwrite
  split
  · exact ho
  · rename_i f hf
    split
    · exact ho
    · rename_i x hx
      refine ⟨fun h e => by cases e; exact ho _ _ _ hf hx, fun r => ?_⟩
      obtain ⟨n, e⟩ := r
      cases e <;> exact ho.or

omit ho in
theorem keeps_srv {Pk Q : Type} {dec : Buffer → Unm Pk} {met : Pk → Obj H → Met H Q} {enc : Buffer → Tag → Q → Buffer}
    {v : Bool} {b : Buffer} (h : ∀ p, KeepsTo S (met p o)) : KeepsTo S (psrv dec met enc o v b) := by
  unfold psrv
  cases dec b with
  | panic => trivial
  | done p t e b' =>
    refine (h p).bind fun _ r hr => ?_
    obtain ⟨o, r⟩ := r
    cases r <;> exact hr

theorem keeps_dispatch (user v b t) : KeepsTo S (pdispatch user o v b t) := by
  have key : ∀ v, KeepsTo S (pdispatchTable user o v b t) := by
    intro v
    unfold pdispatchTable
    by_cases h : t = MT.Tversion
    · rw [if_pos h]; exact keeps_srv fun p => keeps_version ho _ _
    rw [if_neg h]; clear h
    by_cases h : t = MT.Tattach
    · rw [if_pos h]; exact keeps_srv fun p => keeps_attach ho _ _ _ _
    rw [if_neg h]; clear h
    by_cases h : t = MT.Tflush
    · rw [if_pos h]; exact keeps_srv fun p => ho
    rw [if_neg h]; clear h
    by_cases h : t = MT.Twalk
    · rw [if_pos h]; exact keeps_srv fun p => keeps_walk ho _ _ _
    rw [if_neg h]; clear h
    by_cases h : t = MT.Topen
    · rw [if_pos h]; exact keeps_srv fun p => keeps_open ho _ _
    rw [if_neg h]; clear h
    by_cases h : t = MT.Tcreate
    · rw [if_pos h]; exact keeps_srv fun p => keeps_create ho _ _ _ _
    rw [if_neg h]; clear h
    by_cases h : t = MT.Tclunk
    · rw [if_pos h]; exact keeps_srv fun p => keeps_clunk ho _
    rw [if_neg h]; clear h
    by_cases h : t = MT.Tstat
    · rw [if_pos h]; exact keeps_srv fun p => keeps_stat ho _ _
    rw [if_neg h]; clear h
    by_cases h : t = MT.Twstat
    · rw [if_pos h]; exact keeps_srv fun p => keeps_wstat ho _ _
    rw [if_neg h]; clear h
    by_cases h : t = MT.Tremove
    · rw [if_pos h]; exact keeps_srv fun p => keeps_remove ho _
    rw [if_neg h]; clear h
    by_cases h : t = MT.Tread
    · rw [if_pos h]; exact keeps_srv fun p => keeps_read ho _ _ _ _
    rw [if_neg h]; clear h
    by_cases h : t = MT.Twrite
    · rw [if_pos h]; exact keeps_srv fun p => keeps_write ho _ _ _
    rw [if_neg h]; clear h
    exact ho
  unfold pdispatch
  split
  · exact key _
  · split
    · split
      · exact ho
      · trivial
    · exact key _

end

/-! ### runs -/

variable {host : Host ω H} {user rootPath : GoString}

/-- the files that connection `i` has open, and those it still works on in its request, it has opened -/
def OwnInv (ls : List (Label ω H)) (p : TProc ω H) : Prop :=
  ∀ i c, p.thr[i]? = some c → HeldIn (HasOpened i ls) c.obj ∧ ∀ q, c.running = some q → KeepsTo (HasOpened i ls) q

theorem HasOpened.more {i : Nat} {ls ls' : List (Label ω H)} {h : H} (hh : HasOpened i ls h) : HasOpened i (ls ++ ls') h := by
  obtain ⟨e, h1, h2⟩ := hh
  exact ⟨e, List.mem_append.2 (.inl h1), h2⟩

theorem own_inv {w0 : ω} {ls : List (Label ω H)} {p : TProc ω H} (hr : TRun host user rootPath w0 ls p) : OwnInv ls p := by
  induction hr with
  | init => intro i c hc; simp at hc
  | @step ls p l p' hr0 hs ih =>
    have old : ∀ {i c}, p.thr[i]? = some c → HeldIn (HasOpened i (ls ++ [l])) c.obj ∧
        ∀ q, c.running = some q → KeepsTo (HasOpened i (ls ++ [l])) q := by
      intro i c hc
      obtain ⟨h1, h2⟩ := ih i c hc
      exact ⟨h1.mono fun _ h => h.more, fun q hq => (h2 q hq).mono (fun _ h => h.more) fun S S' r hS => HeldIn.mono hS⟩
    have upd : ∀ {i : Nat} {c c' : Thr H}, p.thr[i]? = some c →
        (HeldIn (HasOpened i (ls ++ [l])) c'.obj ∧ ∀ q, c'.running = some q → KeepsTo (HasOpened i (ls ++ [l])) q) →
        ∀ w, OwnInv (ls ++ [l]) { world := w, thr := p.thr.set i c' } := by
      intro i c c' hc hc' w j d hd
      by_cases hij : i = j
      · subst hij
        rw [List.getElem?_set_self (List.getElem?_eq_some_iff.1 hc).1] at hd
        cases hd
        exact hc'
      · rw [List.getElem?_set_ne hij] at hd
        exact old hd
    cases hs with
    | accept =>
      intro i c hc
      rw [List.getElem?_append] at hc
      split at hc
      · exact old hc
      · have hm := List.mem_of_getElem? hc
        rw [List.mem_singleton] at hm
        subst hm
        exact ⟨fun j f h hf => by simp [newObj, newFS] at hf, nofun⟩
    | @start j d t body spare hd hdead hrun =>
      refine upd (c' := { d with running := some (pdispatch user d.obj d.Versioned ⟨[], body, spare⟩ t) }) hd ⟨(old hd).1, fun q hq => ?_⟩ _
      cases hq
      exact keeps_dispatch (old hd).1 _ _ _ _
    | @call j d x k hd hrun =>
      refine upd (c' := { d with running := some (k (host.exec x p.world).2) }) hd ⟨(old hd).1, fun q hq => ?_⟩ _
      cases hq
      refine (((ih j d hd).2 _ hrun).2 _).mono (fun h hh => ?_) fun S S' r hS => HeldIn.mono hS
      rcases hh with hh | hh
      · exact hh.more
      · exact ⟨_, List.mem_append.2 (.inr (.head _)), hh⟩
    | @reply j d o v b written hd hrun =>
      have hx : HeldIn (HasOpened j (ls ++ [.reply j written])) o := (old hd).2 _ hrun
      refine upd hd ?_ _
      unfold Thr.replied
      cases written
      · exact ⟨hx, nofun⟩
      · exact ⟨hx, nofun⟩
    | @hangup j d hd hrun =>
      refine upd (c' := { d with dead := true }) hd ⟨(old hd).1, fun q hq => ?_⟩ _
      rw [show ({ d with dead := true } : Thr H).running = d.running from rfl, hrun] at hq
      cases hq
    | other w => exact fun i c hc => old hc

/-- the last step of a run -/
theorem run_last {w0 : ω} {ls1 ls2 : List (Label ω H)} {l : Label ω H} {p : TProc ω H}
    (hr : TRun host user rootPath w0 (ls1 ++ l :: ls2) p) :
    ∃ p1 p2, TRun host user rootPath w0 ls1 p1 ∧ TStep host user rootPath p1 l p2 := by
  rw [show ls1 ++ l :: ls2 = (ls1 ++ [l]) ++ ls2 by simp] at hr
  obtain ⟨p1, hr1⟩ := run_split host user rootPath hr
  generalize hls : ls1 ++ [l] = ls at hr1
  cases hr1 with
  | init => simp at hls
  | @step ls p l' p' hr0 hs =>
    obtain ⟨h1, h2⟩ := List.append_inj' hls rfl
    subst h1
    have h2 : l = l' := by simpa using h2
    subst h2
    exact ⟨_, _, hr0, hs⟩

/-- **C101** Whatever the clients send and however their requests overlap: an open file that a connection reads, writes,
lists, syncs or closes is one that the same connection has got from a call of `os.OpenFile`. -/
theorem C101_own {w0 : ω} {ls1 ls2 : List (Label ω H)} {p : TProc ω H} {i : Nat} {e : Ev H} {h : H}
    (hr : TRun host user rootPath w0 (ls1 ++ .call i e :: ls2) p) (hu : e.1.uses = some h) : HasOpened i ls1 h := by
  obtain ⟨p1, p2, hr1, hs⟩ := run_last hr
  cases hs with
  | call hd hrun => exact ((own_inv hr1 _ _ hd).2 _ hrun).1 h hu

theorem opened_once {ls : List (Label ω H)} (ha : OpenedApart ls) {i j : Nat} {h : H} (hi : HasOpened i ls h) (hj : HasOpened j ls h) :
    i = j := by
  obtain ⟨e, hm, he⟩ := hi
  obtain ⟨e', hm', he'⟩ := hj
  obtain ⟨l1, l2, rfl⟩ := List.append_of_mem hm
  rcases List.mem_append.1 hm' with hm' | hm'
  · obtain ⟨l3, l4, rfl⟩ := List.append_of_mem hm'
    exact absurd he (ha l3 j e' l4 i e l2 h (by simp) he')
  · rcases List.mem_cons.1 hm' with hm' | hm'
    · cases hm'; rfl
    · obtain ⟨l3, l4, rfl⟩ := List.append_of_mem hm'
      exact absurd he' (ha l1 i e l3 j e' l4 h (by simp) he)

/-- **C101** No two connections ever work on the same open file, and none works on a file that another has opened. -/
theorem C101_apart {w0 : ω} {ls : List (Label ω H)} {p : TProc ω H} (hr : TRun host user rootPath w0 ls p) (ha : OpenedApart ls)
    {i j : Nat} {e : Ev H} {h : H} (hc : Label.call i e ∈ ls) (hu : e.1.uses = some h) (ho : HasOpened j ls h) : j = i := by
  obtain ⟨l1, l2, rfl⟩ := List.append_of_mem hc
  exact opened_once ha ho (C101_own hr hu).more

/-! ### connections that have ended -/

/-- connection `i` has broken down, or a reply on it could not be written -/
def Ended (i : Nat) (ls : List (Label ω H)) : Prop := Label.hangup i ∈ ls ∨ Label.reply i false ∈ ls

theorem ended_inv {w0 : ω} {ls : List (Label ω H)} {p : TProc ω H} (hr : TRun host user rootPath w0 ls p) {i : Nat} (he : Ended i ls) :
    ∃ c, p.thr[i]? = some c ∧ c.dead = true ∧ c.running = none := by
  induction hr with
  | init => rcases he with he | he <;> cases he
  | @step ls p l p' hr0 hs ih =>
    have old : Ended i ls → ∃ c, p.thr[i]? = some c ∧ c.dead = true ∧ c.running = none := ih
    by_cases hl : Ended i ls
    · obtain ⟨c, hc, hd, hn⟩ := old hl
      have keep : ∀ {j : Nat} {d d' : Thr H} (w : ω), p.thr[j]? = some d → (j = i → d'.dead = true ∧ d'.running = none) →
          ∃ c, (p.thr.set j d')[i]? = some c ∧ c.dead = true ∧ c.running = none := by
        intro j d d' w hjd h
        by_cases hj : j = i
        · subst hj
          exact ⟨d', List.getElem?_set_self (List.getElem?_eq_some_iff.1 hjd).1, h rfl⟩
        · exact ⟨c, by rw [List.getElem?_set_ne hj]; exact hc, hd, hn⟩
      cases hs with
      | accept => exact ⟨c, by rw [List.getElem?_append_left (List.getElem?_eq_some_iff.1 hc).1]; exact hc, hd, hn⟩
      | start t body spare hjd hdead hrun =>
        exact keep p.world hjd fun h => by subst h; rw [hc] at hjd; cases hjd; rw [hd] at hdead; cases hdead
      | call hjd hrun =>
        exact keep p.world hjd fun h => by subst h; rw [hc] at hjd; cases hjd; rw [hn] at hrun; cases hrun
      | reply written hjd hrun =>
        exact keep p.world hjd fun h => by subst h; rw [hc] at hjd; cases hjd; rw [hn] at hrun; cases hrun
      | hangup hjd hrun => exact keep p.world hjd fun h => ⟨rfl, hrun⟩
      | other w => exact ⟨c, hc, hd, hn⟩
    · have hl' : l = .hangup i ∨ l = .reply i false := by
        rcases he with he | he <;> rcases List.mem_append.1 he with h | h
        · exact absurd (.inl h) hl
        · exact .inl (List.mem_singleton.1 h).symm
        · exact absurd (.inr h) hl
        · exact .inr (List.mem_singleton.1 h).symm
      rcases hl' with rfl | rfl
      · cases hs with
        | hangup hjd hrun => exact ⟨_, List.getElem?_set_self (List.getElem?_eq_some_iff.1 hjd).1, rfl, hrun⟩
      · cases hs with
        | reply written hjd hrun => exact ⟨_, List.getElem?_set_self (List.getElem?_eq_some_iff.1 hjd).1, rfl, rfl⟩

/-- **C101** The files that a connection has opened are out of reach when it has ended: whatever happens from then on, no
call works on any of them, so that those not closed yet are never closed. -/
theorem C101_abandoned {w0 : ω} {ls1 ls2 : List (Label ω H)} {p : TProc ω H} (hr : TRun host user rootPath w0 (ls1 ++ ls2) p)
    (ha : OpenedApart (ls1 ++ ls2)) {i : Nat} (hend : Ended i ls1) {h : H} (ho : HasOpened i ls1 h) {j : Nat} {e : Ev H}
    (hc : Label.call j e ∈ ls2) : e.1.uses ≠ some h := by
  intro hu
  have hij : i = j := C101_apart hr ha (List.mem_append.2 (.inr hc)) hu ho.more
  subst hij
  obtain ⟨l2, l3, rfl⟩ := List.append_of_mem hc
  rw [← List.append_assoc] at hr
  obtain ⟨p1, p2, hr1, hs⟩ := run_last hr
  obtain ⟨c, h1, -, h3⟩ := ended_inv hr1 (i := i) (by
    rcases hend with h | h
    · exact .inl (List.mem_append.2 (.inl h))
    · exact .inr (List.mem_append.2 (.inl h)))
  cases hs with
  | call hd hrun => rw [h1] at hd; cases hd; rw [h3] at hrun; cases hrun

/-! ### operating systems -/

/-- The calls of package os return new open files: `used w h` says that in world `w` the open file `h` has been given
out. -/
structure FreshFiles (host : Host ω H) (used : ω → H → Prop) : Prop where
  keeps : ∀ c w h, used w h → used (host.exec c w).1 h
  fresh : ∀ c w h, Ev.gives ⟨c, (host.exec c w).2⟩ = some h → ¬ used w h ∧ used (host.exec c w).1 h

/-- other processes do not take back what has been given out -/
def OthersKeep (used : ω → H → Prop) (ls : List (Label ω H)) : Prop :=
  ∀ l1 w l2 i h, ls = l1 ++ .other w :: l2 → HasOpened i l1 h → used w h

theorem opened_used {used : ω → H → Prop} (hf : FreshFiles host used) {w0 : ω} {ls : List (Label ω H)} {p : TProc ω H}
    (hr : TRun host user rootPath w0 ls p) (ho : OthersKeep used ls) : (∀ i h, HasOpened i ls h → used p.world h) ∧ OpenedApart ls := by
  induction hr with
  | init =>
    exact ⟨fun i h ⟨e, he, _⟩ => (by cases he), fun l1 i e l2 j e' l3 h hl => (by simp at hl)⟩
  | @step ls p l p' hr0 hs ih =>
    obtain ⟨h1, h2⟩ := ih fun l1 w l2 i h hl => ho l1 w (l2 ++ [l]) i h (by rw [hl]; simp)
    -- the last step gives out nothing that has been given out
    have apart : (∀ j e h, l = .call j e → e.gives = some h → ¬ used p.world h) → OpenedApart (ls ++ [l]) := by
      intro hl l1 i e l2 j e' l3 h heq he
      rcases List.eq_nil_or_concat l3 with rfl | ⟨l4, x, rfl⟩
      · rw [show l1 ++ Label.call i e :: (l2 ++ [Label.call j e']) = (l1 ++ .call i e :: l2) ++ [.call j e'] by simp] at heq
        obtain ⟨hA, hB⟩ := List.append_inj' heq rfl
        intro he'
        exact hl j e' h (by simpa using hB) he' (h1 i h ⟨e, by rw [hA]; simp, he⟩)
      · rw [List.concat_eq_append, show l1 ++ Label.call i e :: (l2 ++ Label.call j e' :: (l4 ++ [x])) =
          (l1 ++ .call i e :: (l2 ++ .call j e' :: l4)) ++ [x] by simp] at heq
        obtain ⟨hA, -⟩ := List.append_inj' heq rfl
        exact h2 l1 i e l2 j e' l4 h hA he
    have quiet : (∀ j e, l ≠ .call j e) → ∀ i h, HasOpened i (ls ++ [l]) h → HasOpened i ls h := by
      intro hl i h hh
      obtain ⟨e, he, hg⟩ := hh
      rcases List.mem_append.1 he with he | he
      · exact ⟨e, he, hg⟩
      · exact absurd (List.mem_singleton.1 he).symm (hl i e)
    have same : (∀ j e, l ≠ .call j e) → p'.world = p.world → (∀ i h, HasOpened i (ls ++ [l]) h → used p'.world h) ∧ OpenedApart (ls ++ [l]) := by
      intro hl hw
      exact ⟨fun i h hh => by rw [hw]; exact h1 i h (quiet hl i h hh), apart fun j e h he => absurd he (hl j e)⟩
    cases hs with
    | accept => exact same nofun rfl
    | start t body spare _ _ _ => exact same nofun rfl
    | reply written _ _ => exact same nofun rfl
    | hangup _ _ => exact same nofun rfl
    | other w => exact ⟨fun i h hh => ho ls w [] i h rfl (quiet nofun i h hh), apart nofun⟩
    | @call j d x k hd hrun =>
      refine ⟨fun i h hh => ?_, apart fun j' e h he hg => ?_⟩
      · obtain ⟨e, he, hg⟩ := hh
        rcases List.mem_append.1 he with he | he
        · exact hf.keeps _ _ _ (h1 i h ⟨e, he, hg⟩)
        · have he := List.mem_singleton.1 he
          cases he
          exact (hf.fresh _ _ _ hg).2
      · cases he
        exact (hf.fresh _ _ _ hg).1

/-- **C101** On an operating system that gives out new files, no two calls return the same open file, as `C101_apart` and
`C101_abandoned` ask for. -/
theorem C101_fresh {used : ω → H → Prop} (hf : FreshFiles host used) {w0 : ω} {ls : List (Label ω H)} {p : TProc ω H}
    (hr : TRun host user rootPath w0 ls p) (ho : OthersKeep used ls) : OpenedApart ls :=
  (opened_used hf hr ho).2

/-- **C101** The same for the program as a whole, the bytes that arrive being arbitrary. -/
theorem C101_program {used : ω → H → Prop} (hf : FreshFiles host used) {w0 : ω} {ls : List (DLabel ω H)} {d : Daemon ω H}
    (hr : DRun host user rootPath w0 ls d) (ho : OthersKeep used (ls.flatMap DLabel.threads)) {i j : Nat} {e e' : Ev H} {h : H}
    (hc : e ∈ made i ls) (hu : e.1.uses = some h) (hc' : e' ∈ made j ls) (hu' : e'.1.uses = some h ∨ e'.gives = some h) : j = i := by
  have hr' := C95_threads hr
  have ha := C101_fresh hf hr' ho
  have mem : ∀ {i : Nat} {e : Ev H}, e ∈ made i ls → Label.call i e ∈ ls.flatMap DLabel.threads := by
    intro i e he
    unfold made at he
    obtain ⟨l, h1, h2⟩ := List.mem_flatMap.1 he
    refine List.mem_flatMap.2 ⟨l, h1, ?_⟩
    cases l with
    | call k e' =>
      dsimp only at h2
      split at h2
      · rename_i hk; subst hk; rw [List.mem_singleton] at h2; subst h2; exact .head _
      · cases h2
    | _ => cases h2
  refine C101_apart hr' ha (mem hc) hu ?_
  rcases hu' with hu' | hu'
  · obtain ⟨l1, l2, hl⟩ := List.append_of_mem (mem hc')
    rw [hl] at hr' ⊢
    exact (C101_own hr' hu').more
  · exact ⟨e', mem hc', hu'⟩

/-! ### examples -/

open Mem

theorem mem_fresh : FreshFiles Mem.host fun w h => h < w.opened.length := by
  have node : ∀ p f (w : Mem.World), (Mem.onNode p f w).1.opened = w.opened := by
    intro p f w; unfold Mem.onNode; split <;> rfl
  have onH : ∀ {α : Type} (h : Nat) (w : Mem.World) (bad : α) (f : Mem.Opened → Mem.World × α),
      (∀ o, (f o).1.opened.length = w.opened.length) → (Mem.onHandle h w bad f).1.opened.length = w.opened.length := by
    intro α h w bad f hf
    unfold Mem.onHandle
    split
    · split
      · exact hf _
      · rfl
    · rfl
  have opn : ∀ p fl pm (w : Mem.World), (∃ e, (Mem.openFile p fl pm w) = (w, .error e)) ∨
      ((Mem.openFile p fl pm w).1.opened.length = w.opened.length + 1 ∧ (Mem.openFile p fl pm w).2 = .ok w.opened.length) := by
    intro p fl pm w
    unfold Mem.openFile
    split
    · split
      · exact .inl ⟨_, rfl⟩
      · right
        split <;> simp [Mem.addHandle, Mem.setNode]
    · split
      · right; simp [Mem.addHandle, Mem.addNode]
      · exact .inl ⟨_, rfl⟩
  refine ⟨fun c w h hh => ?_, fun c w h hg => ?_⟩
  · have key : w.opened.length ≤ (Mem.host.exec c w).1.opened.length := by
      cases c with
      | lstat p => exact Nat.le_refl _
      | stat p => exact Nat.le_refl _
      | openFile p fl pm =>
        rcases opn p fl pm w with ⟨e, h⟩ | ⟨h, -⟩
        · show _ ≤ (Mem.openFile p fl pm w).1.opened.length
          rw [h]; exact Nat.le_refl _
        · show _ ≤ (Mem.openFile p fl pm w).1.opened.length
          omega
      | mkdir p m =>
        show _ ≤ (Mem.mkdir p m w).1.opened.length
        unfold Mem.mkdir; split <;> simp [Mem.addNode]
      | chmod p m => show _ ≤ (Mem.onNode p _ w).1.opened.length; rw [node]; exact Nat.le_refl _
      | rename p q =>
        show _ ≤ (Mem.rename p q w).1.opened.length
        unfold Mem.rename; split <;> simp
      | truncate p n =>
        simp only [Host.exec, Mem.host]
        split
        · exact Nat.le_refl _
        · rw [node]; exact Nat.le_refl _
      | chtimes p a m => show _ ≤ (Mem.onNode p _ w).1.opened.length; rw [node]; exact Nat.le_refl _
      | remove p =>
        show _ ≤ (Mem.remove p w).1.opened.length
        unfold Mem.remove; split <;> simp
      | close h => exact Nat.le_of_eq (onH _ _ _ _ fun o => by simp [Mem.setOpened]).symm
      | sync h => exact Nat.le_of_eq (onH h w _ (fun _ => (w, none)) fun o => rfl).symm
      | seek0 h => exact Nat.le_of_eq (onH _ _ _ _ fun o => by simp [Mem.setOpened]).symm
      | readdir1 h => exact Nat.le_of_eq (onH _ _ _ _ fun o => by split <;> simp [Mem.setOpened]).symm
      | readAt h n off => exact Nat.le_of_eq (onH _ _ _ _ fun o => by split <;> rfl).symm
      | writeAt h b off => exact Nat.le_of_eq (onH _ _ _ _ fun o => by split <;> rfl).symm
    exact Nat.lt_of_lt_of_le hh key
  · cases c with
    | openFile p fl pm =>
      rcases opn p fl pm w with ⟨e, h'⟩ | ⟨h1, h2⟩
      · have : (Mem.host.exec (.openFile p fl pm) w).2 = .error e := congrArg (·.2) h'
        rw [this] at hg; cases hg
      · have h3 : (Mem.host.exec (.openFile p fl pm) w).2 = .ok w.opened.length := h2
        rw [h3] at hg
        have hg : some w.opened.length = some h := hg
        cases hg
        refine ⟨Nat.lt_irrefl _, ?_⟩
        show _ < (Mem.openFile p fl pm w).1.opened.length
        omega
    | _ => cases hg

/-- connection 0 opens "/x/f" and hangs up in the middle of a request of connection 1, which then opens the file too, and
reads it -/
def leaving : List (Choice Mem.World) :=
  both ++ whole 0 (.walk { SFID := 0, NewFID := 1, Paths := [[102]] }) 1 ++ whole 0 (.open_ { OFID := 1, Omode := 0 }) 1 ++
  [.start 1 (.walk { SFID := 0, NewFID := 1, Paths := [[102]] }), .hangup 0, .go 1, .go 1] ++
  whole 1 (.open_ { OFID := 1, Omode := 0 }) 1 ++ whole 1 (.read { OFID := 1, Off := 1, Len := 2 }) 1

/-- the hypotheses of `C101_abandoned` and, with `mem_fresh`, of `C101_fresh` -/
example : ∃ ls1 ls2 p, TRun Mem.host [103] [47, 120] world0 (ls1 ++ ls2) p ∧ Ended 0 ls1 ∧ HasOpened 0 ls1 0 ∧
    (callsOf 1 ls2).length = 3 ∧ OthersKeep (fun (w : Mem.World) h => h < w.opened.length) (ls1 ++ ls2) := by
  let isEnd : Label Mem.World Nat → Bool := fun l => match l with | .hangup 0 => true | _ => false
  let isOpen : Label Mem.World Nat → Bool := fun l => match l with | .call 0 e => e.gives == some 0 | _ => false
  let isOther : Label Mem.World Nat → Bool := fun l => match l with | .other _ => true | _ => false
  have key : (sched leaving).map (fun r => ((r.1.take 20).any isEnd, (r.1.take 20).any isOpen, (callsOf 1 (r.1.drop 20)).length,
      r.1.any isOther)) = some (true, true, 3, false) := by decide +kernel
  cases hs : sched leaving with
  | none => rw [hs] at key; cases key
  | some r =>
    obtain ⟨ls, p⟩ := r
    rw [hs] at key
    simp only [Option.map_some, Option.some.injEq, Prod.mk.injEq] at key
    obtain ⟨k1, k2, k3, k4⟩ := key
    refine ⟨ls.take 20, ls.drop 20, p, by rw [List.take_append_drop]; exact schedule_run _ _ _ hs, ?_, ?_, k3, ?_⟩
    · obtain ⟨l, h1, h2⟩ := List.any_eq_true.1 k1
      dsimp only [isEnd] at h2
      split at h2
      · exact .inl h1
      · cases h2
    · obtain ⟨l, h1, h2⟩ := List.any_eq_true.1 k2
      dsimp only [isOpen] at h2
      split at h2
      · exact ⟨_, h1, by simpa using h2⟩
      · cases h2
    · rw [List.take_append_drop]
      intro l1 w l2 i h hl _
      rw [hl] at k4
      simp [isOther] at k4

/-! ### a run of the program -/

/-- what may be done next, for examples: a client connects, a packet arrives and is taken, or a goroutine goes on -/
inductive DChoice where
  | packet (i : Nat) (m : TMsg)
  | go (i : Nat)

/-- the steps and what comes of them -/
def dchoose (host : Host ω H) (user : GoString) (d : Daemon ω H) : DChoice → Option (List (DLabel ω H) × Daemon ω H)
  | .packet i m =>
    match d.conns[i]? with
    | some ⟨all, [], none, .hdr, ⟨o, v, false, out, none⟩⟩ =>
      if (m.packet 7).length = pktLen (m.packet 7) ∧ 8 ≤ (m.packet 7).length then
        some ([.arrive i (m.packet 7), .read i, .read i, .start i (m.packet 7) []], { d with
          conns := d.conns.set i (PConn.mk (all ++ m.packet 7) [] none .hdr
            ⟨o, v, false, out, some (pdispatch user o v ⟨[], (m.packet 7).drop 5, []⟩ ((m.packet 7).getD 4 0))⟩) })
      else none
    | _ => none
  | .go i =>
    match d.conns[i]? with
    | some ⟨all, up, fin, rd, ⟨o, v, dd, out, some (.call x k)⟩⟩ =>
      some ([.call i ⟨x, (host.exec x d.world).2⟩], { d with
        conns := d.conns.set i ⟨all, up, fin, rd, ⟨o, v, dd, out, some (k (host.exec x d.world).2)⟩⟩
        world := (host.exec x d.world).1 })
    | some ⟨all, up, fin, _, ⟨_, _, dd, out, some (.ret (o, v, b))⟩⟩ =>
      some ([.reply i true], { d with conns := d.conns.set i ⟨all, up, fin, .hdr, ⟨o, v, dd, out ++ [b.bytes], none⟩⟩ })
    | _ => none

theorem dchoose_run {w0 : ω} {ls ls' : List (DLabel ω H)} {d d' : Daemon ω H} (hr : DRun host user rootPath w0 ls d) (hn : d.exit = none)
    {ch : DChoice} (hc : dchoose host user d ch = some (ls', d')) : DRun host user rootPath w0 (ls ++ ls') d' ∧ d'.exit = none := by
  cases ch with
  | packet i m =>
    unfold dchoose at hc
    dsimp only at hc
    generalize hg : m.packet 7 = g at hc
    split at hc
    · rename_i all o v out heq
      split at hc
      · rename_i hw
        cases hc
        have hlen : (g.take 7).length = 7 := by simp; omega
        have hi : i < d.conns.length := (List.getElem?_eq_some_iff.1 heq).1
        have hz : hdrSize (g.take 7) - 7 = (g.drop 7).length := by
          have := pktLen_hdr hlen
          rw [← pktLen_append (y := g.drop 7) (by omega), List.take_append_drop] at this
          simp only [List.length_drop]
          omega
        have h3 := hr.step hn (.arrive g heq rfl)
        have h4 := h3.step hn (.hdr (g.take 7) (g.drop 7) (List.getElem?_set_self hi) ⟨rfl, rfl⟩ rfl (by simp) hlen)
        have h5 := h4.step hn (.body (g.take 7) (g.drop 7) [] _ (List.getElem?_set_self (by simpa using hi)) ⟨rfl, rfl⟩ rfl (List.append_nil _).symm
          (by simp; omega) (by omega))
        have h6 := h5.step hn (.start g [] (List.getElem?_set_self (by simpa using hi)) ⟨rfl, rfl⟩ (by simp [hz]))
        refine ⟨?_, hn⟩
        simpa using h6
      · cases hc
    · cases hc
  | go i =>
    unfold dchoose at hc
    dsimp only at hc
    split at hc
    · rename_i heq
      cases hc
      exact ⟨hr.step hn (.call heq rfl), hn⟩
    · rename_i heq
      cases hc
      exact ⟨hr.step hn (.reply true heq rfl), hn⟩
    · cases hc

/-- one after the other -/
def dsched (host : Host ω H) (user : GoString) (d : Daemon ω H) : List DChoice → Option (List (DLabel ω H) × Daemon ω H)
  | [] => some ([], d)
  | ch :: chs =>
    match dchoose host user d ch with
    | none => none
    | some (ls, d) =>
      match dsched host user d chs with
      | none => none
      | some (ls', d) => some (ls ++ ls', d)

theorem dsched_run {w0 : ω} {ls ls' : List (DLabel ω H)} {d d' : Daemon ω H} (hr : DRun host user rootPath w0 ls d) (hn : d.exit = none)
    {chs : List DChoice} (hc : dsched host user d chs = some (ls', d')) : DRun host user rootPath w0 (ls ++ ls') d' ∧ d'.exit = none := by
  induction chs generalizing ls ls' d with
  | nil => cases hc; rw [List.append_nil]; exact ⟨hr, hn⟩
  | cons ch chs ih =>
    unfold dsched at hc
    split at hc
    · cases hc
    · rename_i l1 d1 h1
      obtain ⟨hr1, hn1⟩ := dchoose_run hr hn h1
      split at hc
      · cases hc
      · rename_i l2 d2 h2
        cases hc
        rw [← List.append_assoc]
        exact ih hr1 hn1 h2

/-- the program has accepted two connections -/
def accepted2 : List (DLabel ω H) := [.listener 0, .listener 1, .listener 1]

theorem daemon_two (host : Host ω H) (user rootPath : GoString) (w0 : ω) :
    DRun host user rootPath w0 accepted2 { lst := { listeners := [0], calls := [{ ln := 0, pc := .accepting 0, seen := [.conn 0, .conn 1] }], conns := [0, 1] }
                                           conns := [{ thr := { obj := newObj rootPath } }, { thr := { obj := newObj rootPath } }], world := w0 } := by
  have h1 : DRun host user rootPath w0 ([] ++ [.listener 0]) _ :=
    DRun.init.step rfl (.listener _ [] (.track _ 0 _ rfl rfl) rfl rfl rfl)
  have h2 := h1.step rfl (.listener _ [0] (.accept _ 0 _ 0 (.conn 0) rfl rfl) rfl rfl rfl)
  have h3 := h2.step rfl (.listener _ [1] (.accept _ 0 _ 0 (.conn 1) rfl rfl) rfl rfl rfl)
  exact h3

/-- a request and so many system calls -/
def asking (i : Nat) (m : TMsg) (n : Nat) : List DChoice := .packet i m :: List.replicate (n + 1) (.go i)

def greeting (i : Nat) : List DChoice :=
  asking i version0 0 ++ asking i attach0 1 ++ asking i (.walk { SFID := 0, NewFID := 1, Paths := [[102]] }) 1

/-- both connections open "/x/f", and read it in turns -/
def readers2 : List DChoice :=
  greeting 0 ++ greeting 1 ++ asking 0 (.open_ { OFID := 1, Omode := 0 }) 1 ++ asking 1 (.open_ { OFID := 1, Omode := 0 }) 1 ++
  asking 1 (.read { OFID := 1, Off := 1, Len := 2 }) 1 ++ asking 0 (.read { OFID := 1, Off := 1, Len := 2 }) 1

/-- the hypotheses of `C101_program`: two files are open and both are read -/
example : ∃ ls d e0 e1, DRun Mem.host [103] [47, 120] world0 ls d ∧
    OthersKeep (fun (w : Mem.World) h => h < w.opened.length) (ls.flatMap DLabel.threads) ∧
    e0 ∈ made 0 ls ∧ e0.1.uses = some 0 ∧ e1 ∈ made 1 ls ∧ e1.1.uses = some 1 := by
  let isOther : Label Mem.World Nat → Bool := fun l => match l with | .other _ => true | _ => false
  let d0 : Daemon Mem.World Nat :=
    { lst := { listeners := [0], calls := [{ ln := 0, pc := .accepting 0, seen := [.conn 0, .conn 1] }], conns := [0, 1] }
      conns := [{ thr := { obj := newObj [47, 120] } }, { thr := { obj := newObj [47, 120] } }], world := world0 }
  have key : (dsched Mem.host [103] d0 readers2).map (fun r => ((made 0 r.1).any (fun e => e.1.uses == some 0),
      (made 1 r.1).any (fun e => e.1.uses == some 1), (r.1.flatMap DLabel.threads).any isOther)) = some (true, true, false) := by
    decide +kernel
  cases hs : dsched Mem.host [103] d0 readers2 with
  | none => rw [hs] at key; cases key
  | some r =>
    obtain ⟨ls, d⟩ := r
    rw [hs] at key
    simp only [Option.map_some, Option.some.injEq, Prod.mk.injEq] at key
    obtain ⟨k1, k2, k3⟩ := key
    have hm : ∀ i, made i (accepted2 ++ ls : List (DLabel Mem.World Nat)) = made i ls := fun i => by simp [made, accepted2]
    obtain ⟨e0, h0, h0'⟩ := List.any_eq_true.1 k1
    obtain ⟨e1, h1, h1'⟩ := List.any_eq_true.1 k2
    refine ⟨_, d, e0, e1, (dsched_run (daemon_two Mem.host [103] [47, 120] world0) rfl hs).1, ?_, by rw [hm]; exact h0, by simpa using h0',
      by rw [hm]; exact h1, by simpa using h1'⟩
    intro l1 w l2 i h hl _
    have : Label.other w ∈ (accepted2 ++ ls : List (DLabel Mem.World Nat)).flatMap DLabel.threads := by rw [hl]; simp
    rw [List.flatMap_append, List.mem_append] at this
    rcases this with h | h
    · simp [accepted2, DLabel.threads] at h
    · have := List.any_eq_true.2 ⟨_, h, (rfl : isOther (.other w) = true)⟩
      rw [k3] at this; cases this

/-- a run of the program that has closed its socket (`C95_listens`) -/
example : ∃ ls d, DRun Mem.host [103] [47, 120] world0 ls d ∧ d.lst.closes = [(0, .serve 0)] := by
  have h1 := (daemon_two Mem.host [103] [47, 120] world0).step rfl (.listener _ [] (.accept _ 0 _ 0 (.permanent [1]) rfl rfl) rfl rfl rfl)
  have h2 := h1.step rfl (.listener _ [] (.untrack _ 0 _ [1] rfl rfl) rfl rfl rfl)
  have h3 := h2.step rfl (.listener _ [] (.close _ 0 _ [1] rfl rfl) rfl rfl rfl)
  exact ⟨_, _, h3, rfl⟩

end Ninep.Ufs
