import Verif.Lemmas.Threads
import Verif.Props.UfsPaths
/-
What is true of every host call of a program, and of what the program returns.
-/

namespace Ninep.Ufs
open Spec

variable {H : Type}

/-- every call `c` of the program has `P prev c`, with the call before it and the answer to that, and every result
has `Q` -/
def Prog.Safe {α : Type} (P : Option (Ev H) → HCall H → Prop) (Q : α → Prop) : Option (Ev H) → Prog H α → Prop
  | _, .ret a => Q a
  | _, .panic => True
  | prev, .call c k => P prev c ∧ ∀ a, (k a).Safe P Q (some ⟨c, a⟩)

variable {α β : Type} {P : Option (Ev H) → HCall H → Prop}

theorem Prog.Safe.bind {Q : α → Prop} {R : β → Prop} {prev : Option (Ev H)} {p : Prog H α} {f : α → Prog H β}
    (hp : p.Safe P Q prev) (hf : ∀ prev a, Q a → (f a).Safe P R prev) : (p.bind f).Safe P R prev := by
  induction p generalizing prev with
  | ret a => exact hf _ _ hp
  | panic => trivial
  | call c k ih => exact ⟨hp.1, fun a => ih a (hp.2 a)⟩

/-- the calls along a path -/
theorem Prog.Safe.path {Q : α → Prop} {p q : Prog H α} {tr : List (Ev H)} (h : p.Path tr q) {prev : Option (Ev H)}
    (hp : p.Safe P Q prev) : q.Safe P Q (if tr = [] then prev else tr.getLast?) := by
  induction h generalizing prev with
  | nil => simpa using hp
  | @cons c k a tr q _ ih =>
    have := ih (hp.2 a)
    rw [if_neg (by simp)]
    cases tr with
    | nil => simpa using this
    | cons e tr => simpa using this

theorem Prog.Safe.mono {P' : Option (Ev H) → HCall H → Prop} {Q Q' : α → Prop} (h1 : ∀ prev c, P prev c → P' prev c) (h2 : ∀ a, Q a → Q' a)
    {prev : Option (Ev H)} {p : Prog H α} (hp : p.Safe P Q prev) : p.Safe P' Q' prev := by
  induction p generalizing prev with
  | ret a => exact h2 _ hp
  | panic => trivial
  | call c k ih => exact ⟨h1 _ _ hp.1, fun a => ih a (hp.2 a)⟩

/-! ### calls that stay below the root -/

/-- the paths a call names -/
def HCall.paths : HCall H → List GoString
  | .lstat p => [p]
  | .stat p => [p]
  | .openFile p _ _ => [p]
  | .mkdir p _ => [p]
  | .chmod p _ => [p]
  | .rename p q => [p, q]
  | .truncate p _ => [p]
  | .chtimes p _ _ => [p]
  | .remove p => [p]
  | .close _ => []
  | .sync _ => []
  | .seek0 _ => []
  | .readdir1 _ => []
  | .readAt _ _ _ => []
  | .writeAt _ _ _ => []

/-- all paths of the call are at or below the root -/
def Stays (root : Root) (_ : Option (Ev H)) (c : HCall H) : Prop := ∀ p ∈ c.paths, Below root p

/-- the object has its root there and its fids below -/
def Within (rootPath : GoString) (o : Obj H) : Prop := o.rootPath = rootPath ∧ ∀ i f, o.files i = some f → Below (rootOf rootPath) f.fullName

theorem Within.inside {rootPath : GoString} {o : Obj H} (h : Within rootPath o) : Inside o := by
  intro i f hf
  unfold rootPlace
  rw [h.1]
  exact h.2 i f hf

theorem Within.set {rootPath : GoString} {o : Obj H} (h : Within rootPath o) (i : FID) {f : File H}
    (hf : Below (rootOf rootPath) f.fullName) : Within rootPath (o.set i f) := by
  refine ⟨h.1, fun j g hg => ?_⟩
  by_cases hj : j = i
  · subst hj; rw [set_same, Option.some.injEq] at hg; subst hg; exact hf
  · rw [set_other _ _ hj] at hg; exact h.2 j g hg

theorem Within.del {rootPath : GoString} {o : Obj H} (h : Within rootPath o) (i : FID) : Within rootPath (o.del i) := by
  refine ⟨h.1, fun j g hg => ?_⟩
  by_cases hj : j = i
  · subst hj; simp [State.del] at hg
  · simp only [State.del, if_neg hj] at hg; exact h.2 j g hg

variable {rootPath : GoString}

abbrev Fine (rootPath : GoString) {α : Type} (prev : Option (Ev H)) (p : Met H α) : Prop :=
  p.Safe (Stays (rootOf rootPath)) (fun r => Within rootPath r.1) prev

theorem stays_one {root : Root} {prev : Option (Ev H)} {c : HCall H} {p : GoString} (hc : c.paths = [p]) (hp : Below root p) :
    Stays root prev c := by
  unfold Stays; rw [hc]; simpa using hp

theorem stays_none {root : Root} {prev : Option (Ev H)} {c : HCall H} (hc : c.paths = []) : Stays root prev c := by
  unfold Stays; rw [hc]; simp

section
variable {o : Obj H} (ho : Within rootPath o) (prev : Option (Ev H))
include ho

theorem fine_version (m v) : Fine rootPath prev (pversion m v o) := by
  unfold pversion; split <;> exact ho

theorem fine_attach (a b c d) : Fine rootPath prev (pattach a b c d o) := by
  unfold pattach
  split
  · exact ho
  · have hb : Below (rootOf rootPath) (pathJoin o.rootPath (pathJoin [slash] d)) := by
      have := below_attach o d
      rwa [rootPlace, show rootOf o.rootPath = rootOf rootPath from congrArg _ ho.1] at this
    refine ⟨stays_one rfl hb, fun r => ?_⟩
    cases r with
    | error e => exact ho
    | ok st => exact ho.set _ hb

omit ho in
theorem fine_walkLoop (p : GoString) (names : List GoString) (hn : ∀ k, Below (rootOf rootPath) (reach p names k)) :
    (pwalkLoop (H := H) p names).Safe (Stays (rootOf rootPath)) (fun r => ∀ q, r.2 = some q → Below (rootOf rootPath) q) prev := by
  induction names generalizing p prev with
  | nil => intro q hq; cases hq; exact hn 0
  | cons n ns ih =>
    refine ⟨stays_one rfl (hn 1), fun r => ?_⟩
    cases r with
    | error e => intro q hq; cases hq
    | ok st => exact (ih _ _ fun k => hn (k + 1)).bind fun _ r hr => hr

theorem fine_walk (p : TwalkPkt) (hl : Leads o (.walk p)) : Fine rootPath prev (pwalk p.SFID p.NewFID p.Paths o) := by
  unfold pwalk
  split
  · exact ho
  · rename_i f hf
    split
    · split
      · exact ho
      · exact ho.set _ (ho.2 _ _ hf)
    · refine (fine_walkLoop prev _ _ ?_).bind fun prev' r hr => ?_
      · have := hl f hf
        rwa [rootPlace, ho.1] at this
      · obtain ⟨q, r⟩ := r
        cases r with
        | none => dsimp only; split <;> exact ho
        | some p' => dsimp only; split
                     · exact ho
                     · exact ho.set _ (hr p' rfl)

theorem fine_open (i m) : Fine rootPath prev (popen i m o) := by
  unfold popen
  split
  · exact ho
  · rename_i f hf
    refine ⟨stays_one rfl (ho.2 _ _ hf), fun r => ?_⟩
    cases r <;> exact ho.set _ (ho.2 _ f hf)

theorem fine_create (p : TcreatePkt) (hl : Leads o (.create p)) : Fine rootPath prev (pcreate p.OFID p.Name p.CreatePerm p.Omode o) := by
  unfold pcreate
  split
  · exact ho
  · rename_i f hf
    have hb : Below (rootOf rootPath) (pathJoin f.fullName p.Name) := by
      have := hl f hf
      rwa [rootPlace, ho.1] at this
    split
    · exact ho
    · dsimp only
      split
      · refine ⟨stays_one rfl hb, fun _ => ⟨stays_one rfl hb, fun r => ?_⟩⟩
        cases r with
        | error e => exact ho
        | ok st => exact ho.set _ hb
      · refine ⟨stays_one rfl hb, fun r => ?_⟩
        cases r with
        | error e => exact ho
        | ok h =>
          refine ⟨stays_one rfl hb, fun r => ?_⟩
          cases r with
          | error e => exact ho
          | ok st => exact ho.set _ hb

theorem fine_clunkFile (i) (f : File H) : (pclunkFile i o f).Safe (Stays (rootOf rootPath)) (Within rootPath) prev := by
  unfold pclunkFile
  split
  · exact ho.del _
  · exact ⟨stays_none rfl, fun _ => ho.del _⟩

theorem fine_clunk (i) : Fine rootPath prev (pclunk i o) := by
  unfold pclunk
  split
  · exact ho
  · exact (fine_clunkFile ho prev i _).bind fun _ _ h => h

theorem fine_remove (i) : Fine rootPath prev (premove i o) := by
  unfold premove
  split
  · exact ho
  · rename_i f hf
    refine (fine_clunkFile ho prev i _).bind fun _ o' h => ⟨stays_one rfl (ho.2 _ _ hf), fun r => ?_⟩
    cases r <;> exact h

theorem fine_stat (user i) : Fine rootPath prev (pstat user i o) := by
  unfold pstat
  split
  · exact ho
  · rename_i f hf
    refine ⟨stays_one rfl (ho.2 _ _ hf), fun r => ?_⟩
    cases r <;> exact ho

abbrev FineO (rootPath : GoString) (prev : Option (Ev H)) (p : Prog H (Obj H × Option GoString)) : Prop :=
  p.Safe (Stays (rootOf rootPath)) (fun r => Within rootPath r.1) prev

omit ho in
theorem fine_andThen {p : Prog H (Obj H × Option GoString)} {k : Obj H → Prog H (Obj H × Option GoString)} (hp : FineO rootPath prev p)
    (hk : ∀ prev o, Within rootPath o → FineO rootPath prev (k o)) : FineO rootPath prev (pAndThen p k) := by
  refine hp.bind fun prev' r hr => ?_
  obtain ⟨o, e⟩ := r
  cases e with
  | none => exact hk _ _ hr
  | some e => exact hr

theorem fine_wstat (p : TwstatPkt) (hl : Leads o (.wstat p)) : Fine rootPath prev (pwstat p.OFID p.B o) := by
  unfold pwstat
  split
  · exact ho
  · rename_i f hf
    have hb : Below (rootOf rootPath) f.fullName := ho.2 _ _ hf
    split
    · trivial
    · exact ho
    · rename_i dir t b hd
      have hp : Below (rootOf rootPath) (wstatPath f dir o) := by
        have := hl f hf dir t b hd
        rwa [rootPlace, ho.1] at this
      dsimp only
      generalize hpath : wstatPath f dir o = path at hp
      have h0 := ho.1
      refine Prog.Safe.bind (Q := fun r => Within rootPath r.1) ?_ fun _ r hr => ?_
      · refine fine_andThen _ ?_ fun prev o ho => fine_andThen _ ?_ fun prev o ho => fine_andThen _ ?_ fun prev o ho =>
          fine_andThen _ ?_ fun prev o ho => fine_andThen _ ?_ fun prev o ho => ?_
        · unfold pwstatMode
          split
          · exact ⟨stays_one rfl hb, fun _ => ho⟩
          · exact ho
        · unfold pwstatUser
          split <;> exact ho
        · unfold pwstatName
          split
          · rename_i hn
            have hq : Below (rootOf rootPath) (renameTo o.rootPath f.fullName dir.Name) := by
              unfold wstatPath at hpath
              rw [if_pos hn, h0] at hpath
              rw [ho.1, hpath]
              exact hp
            refine ⟨stays_one rfl hq, fun r => ?_⟩
            dsimp only
            split
            · exact ho
            · refine ⟨?_, fun r => ?_⟩
              · intro x hx
                simp only [HCall.paths, List.mem_cons, List.not_mem_nil, or_false] at hx
                rcases hx with rfl | rfl
                · exact hb
                · exact hq
              · cases r with
                | none => exact ho.set _ hq
                | some e => exact ho
          · exact ho
        · unfold pwstatLength
          split
          · exact ⟨stays_one rfl hp, fun _ => ho⟩
          · exact ho
        · unfold pwstatTimes
          split
          · split
            · refine ⟨stays_one rfl hp, fun r => ?_⟩
              cases r with
              | error e => exact ho
              | ok st => exact ⟨stays_one rfl hp, fun _ => ho⟩
            · exact ⟨stays_one rfl hp, fun _ => ho⟩
          · exact ho
        · unfold pwstatSync
          split
          · split
            · exact ho
            · exact ⟨stays_none rfl, fun _ => ho⟩
          · exact ho
      · obtain ⟨o, e⟩ := r
        cases e <;> exact hr

theorem fine_readDir (user i) (f : File H) (hf : Below (rootOf rootPath) f.fullName) (h c) : Fine rootPath prev (preadDir user i f h c o) := by
  unfold preadDir
  dsimp only
  split
  · exact (ho.set _ (by exact hf)).set _ (by exact hf)
  · refine ⟨stays_none rfl, fun r => ?_⟩
    cases r with
    | eof => exact ho.set _ hf
    | fail e => exact ho.set _ hf
    | entry st => dsimp only; split <;> exact ho.set _ hf

theorem fine_read (user i off c) : Fine rootPath prev (pread user i off c o) := by
  unfold pread
  split
  · exact ho
  · rename_i f hf
    have hb : Below (rootOf rootPath) f.fullName := ho.2 _ _ hf
    split
    · exact ho
    · split
      · split
        · refine ⟨stays_none rfl, fun r => ?_⟩
          cases r with
          | some e => exact ho.set _ hb
          | none => exact fine_readDir (ho.set i (f := { f with oflow := [] }) hb) _ _ _ { f with oflow := [] } hb _ _
        · exact fine_readDir ho _ _ _ _ hb _ _
      · split
        · trivial
        · refine ⟨stays_none rfl, fun r => ?_⟩
          obtain ⟨d, e⟩ := r
          cases e <;> exact ho

theorem fine_write (i off b) : Fine rootPath prev (pwrite i off b o) := by
  unfold pwrite
  split
  · exact ho
  · split
    · exact ho
    · refine ⟨stays_none rfl, fun r => ?_⟩
      obtain ⟨n, e⟩ := r
      cases e <;> exact ho

end

/-! ### `Dispatch` -/

theorem safe_srv {Pk Q : Type} {W : Obj H → Prop} {dec : Buffer → Unm Pk} {met : Pk → Obj H → Met H Q} {enc : Buffer → Tag → Q → Buffer}
    {o : Obj H} {v : Bool} {b : Buffer} {prev : Option (Ev H)}
    (h : ∀ p t e b', dec b = .done p t e b' → (met p o).Safe P (fun r => W r.1) prev) :
    (psrv dec met enc o v b).Safe P (fun r => W r.1) prev := by
  unfold psrv
  cases hd : dec b with
  | panic => trivial
  | done p t e b' =>
    refine (h p t e b' hd).bind fun _ r hr => ?_
    obtain ⟨o, r⟩ := r
    cases r <;> exact hr

/-- the message of a packet of type `t`; of a packet that is too short, what the decoder got -/
def PacketAsks (t : MType) (b : Buffer) (m : TMsg) : Prop := ∃ m0 tag e b', m0.ty = t ∧ decT m0 b = .done m tag e b'

/-- a program for each message, put together by `Dispatch` -/
theorem safe_dispatch (user : GoString) {W : Obj H → Prop} {o : Obj H} (v : Bool) {b : Buffer} {t : MType} (hw : W o) (prev : Option (Ev H))
    (hversion : ∀ p, PacketAsks t b (.version p) → (pversion p.TMsize p.TVersion o).Safe P (fun r => W r.1) prev)
    (hattach : ∀ p, PacketAsks t b (.attach p) → (pattach p.SFID p.AFID p.Uname p.Aname o).Safe P (fun r => W r.1) prev)
    (hflush : ∀ p, PacketAsks t b (.flush p) → (pflush p.OTag o).Safe P (fun r => W r.1) prev)
    (hwalk : ∀ p, PacketAsks t b (.walk p) → (pwalk p.SFID p.NewFID p.Paths o).Safe P (fun r => W r.1) prev)
    (hopen : ∀ p, PacketAsks t b (.open_ p) → (popen p.OFID p.Omode o).Safe P (fun r => W r.1) prev)
    (hcreate : ∀ p, PacketAsks t b (.create p) → (pcreate p.OFID p.Name p.CreatePerm p.Omode o).Safe P (fun r => W r.1) prev)
    (hclunk : ∀ p, PacketAsks t b (.clunk p) → (pclunk p.OFID o).Safe P (fun r => W r.1) prev)
    (hstat : ∀ p, PacketAsks t b (.stat p) → (pstat user p.OFID o).Safe P (fun r => W r.1) prev)
    (hwstat : ∀ p, PacketAsks t b (.wstat p) → (pwstat p.OFID p.B o).Safe P (fun r => W r.1) prev)
    (hremove : ∀ p, PacketAsks t b (.remove p) → (premove p.OFID o).Safe P (fun r => W r.1) prev)
    (hread : ∀ p, PacketAsks t b (.read p) → (pread user p.OFID p.Off p.Len o).Safe P (fun r => W r.1) prev)
    (hwrite : ∀ p, PacketAsks t b (.write p) → (pwrite p.OFID p.Off p.Data o).Safe P (fun r => W r.1) prev) :
    (pdispatch user o v b t).Safe P (fun r => W r.1) prev := by
  have key : ∀ v, (pdispatchTable user o v b t).Safe P (fun r => W r.1) prev := by
    intro v
    unfold pdispatchTable
    by_cases h : t = MT.Tversion
    · rw [if_pos h]
      exact safe_srv fun p tg e b' hd => hversion p ⟨.version p, tg, e, b', h.symm, by unfold decT Unm.map; rw [hd]⟩
    rw [if_neg h]; clear h
    by_cases h : t = MT.Tattach
    · rw [if_pos h]
      exact safe_srv fun p tg e b' hd => hattach p ⟨.attach p, tg, e, b', h.symm, by unfold decT Unm.map; rw [hd]⟩
    rw [if_neg h]; clear h
    by_cases h : t = MT.Tflush
    · rw [if_pos h]
      exact safe_srv fun p tg e b' hd => hflush p ⟨.flush p, tg, e, b', h.symm, by unfold decT Unm.map; rw [hd]⟩
    rw [if_neg h]; clear h
    by_cases h : t = MT.Twalk
    · rw [if_pos h]
      exact safe_srv fun p tg e b' hd => hwalk p ⟨.walk p, tg, e, b', h.symm, by unfold decT Unm.map; rw [hd]⟩
    rw [if_neg h]; clear h
    by_cases h : t = MT.Topen
    · rw [if_pos h]
      exact safe_srv fun p tg e b' hd => hopen p ⟨.open_ p, tg, e, b', h.symm, by unfold decT Unm.map; rw [hd]⟩
    rw [if_neg h]; clear h
    by_cases h : t = MT.Tcreate
    · rw [if_pos h]
      exact safe_srv fun p tg e b' hd => hcreate p ⟨.create p, tg, e, b', h.symm, by unfold decT Unm.map; rw [hd]⟩
    rw [if_neg h]; clear h
    by_cases h : t = MT.Tclunk
    · rw [if_pos h]
      exact safe_srv fun p tg e b' hd => hclunk p ⟨.clunk p, tg, e, b', h.symm, by unfold decT Unm.map; rw [hd]⟩
    rw [if_neg h]; clear h
    by_cases h : t = MT.Tstat
    · rw [if_pos h]
      exact safe_srv fun p tg e b' hd => hstat p ⟨.stat p, tg, e, b', h.symm, by unfold decT Unm.map; rw [hd]⟩
    rw [if_neg h]; clear h
    by_cases h : t = MT.Twstat
    · rw [if_pos h]
      exact safe_srv fun p tg e b' hd => hwstat p ⟨.wstat p, tg, e, b', h.symm, by unfold decT Unm.map; rw [hd]⟩
    rw [if_neg h]; clear h
    by_cases h : t = MT.Tremove
    · rw [if_pos h]
      exact safe_srv fun p tg e b' hd => hremove p ⟨.remove p, tg, e, b', h.symm, by unfold decT Unm.map; rw [hd]⟩
    rw [if_neg h]; clear h
    by_cases h : t = MT.Tread
    · rw [if_pos h]
      exact safe_srv fun p tg e b' hd => hread p ⟨.read p, tg, e, b', h.symm, by unfold decT Unm.map; rw [hd]⟩
    rw [if_neg h]; clear h
    by_cases h : t = MT.Twrite
    · rw [if_pos h]
      exact safe_srv fun p tg e b' hd => hwrite p ⟨.write p, tg, e, b', h.symm, by unfold decT Unm.map; rw [hd]⟩
    rw [if_neg h]
    exact hw
  unfold pdispatch
  split
  · exact key _
  · split
    · split
      · exact hw
      · trivial
    · exact key _

theorem fine_dispatch (user : GoString) {o : Obj H} (ho : Within rootPath o) (v : Bool) {b : Buffer} {t : MType} (prev : Option (Ev H))
    (hl : ∀ m, PacketAsks t b m → Leads o m) :
    (pdispatch user o v b t).Safe (Stays (rootOf rootPath)) (fun r => Within rootPath r.1) prev :=
  safe_dispatch user v ho prev (fun _ _ => fine_version ho _ _ _) (fun _ _ => fine_attach ho _ _ _ _ _) (fun _ _ => ho)
    (fun p h => fine_walk ho _ p (hl _ h)) (fun _ _ => fine_open ho _ _ _) (fun p h => fine_create ho _ p (hl _ h))
    (fun _ _ => fine_clunk ho _ _) (fun _ _ => fine_stat ho _ _ _) (fun p h => fine_wstat ho _ p (hl _ h)) (fun _ _ => fine_remove ho _ _)
    (fun _ _ => fine_read ho _ _ _ _ _) (fun _ _ => fine_write ho _ _ _ _)

/-! ### renames -/

/-- a rename comes right after a stat of the new name that did not find a directory -/
def Checked : Option (Ev H) → HCall H → Prop
  | prev, .rename _ new => ∃ r : Except GoString FileInfo, isDirAns r = false ∧ prev = some ⟨.stat new, r⟩
  | _, _ => True

section
variable {o : Obj H} (prev : Option (Ev H))

/-- nothing is said about the result -/
abbrev CheckedAll {α : Type} (prev : Option (Ev H)) (p : Prog H α) : Prop := p.Safe Checked (fun _ => True) prev

theorem checked_walkLoop (p : GoString) (names : List GoString) : CheckedAll (H := H) prev (pwalkLoop p names) := by
  induction names generalizing p prev with
  | nil => trivial
  | cons n ns ih =>
    refine ⟨True.intro, fun r => ?_⟩
    cases r with
    | error e => trivial
    | ok st => exact (ih _ _).bind fun _ _ _ => trivial

theorem checked_clunkFile (i) (f : File H) : CheckedAll prev (pclunkFile i o f) := by
  unfold pclunkFile
  split
  · trivial
  · exact ⟨True.intro, fun _ => trivial⟩

theorem checked_andThen {p : Prog H (Obj H × Option GoString)} {k : Obj H → Prog H (Obj H × Option GoString)} (hp : CheckedAll prev p)
    (hk : ∀ prev o, CheckedAll prev (k o)) : CheckedAll prev (pAndThen p k) := by
  refine hp.bind fun prev' r hr => ?_
  obtain ⟨o, e⟩ := r
  cases e with
  | none => exact hk _ _
  | some e => trivial

theorem checked_wstat (i b) : CheckedAll prev (pwstat i b o) := by
  unfold pwstat
  split
  · trivial
  · split
    · trivial
    · trivial
    · dsimp only
      refine Prog.Safe.bind (Q := fun _ => True) ?_ fun _ r _ => ?_
      · refine checked_andThen _ ?_ fun prev o => checked_andThen _ ?_ fun prev o => checked_andThen _ ?_ fun prev o =>
          checked_andThen _ ?_ fun prev o => checked_andThen _ ?_ fun prev o => ?_
        · unfold pwstatMode
          split
          · exact ⟨True.intro, fun _ => trivial⟩
          · trivial
        · unfold pwstatUser
          split <;> trivial
        · unfold pwstatName
          split
          · refine ⟨True.intro, fun r => ?_⟩
            dsimp only
            split
            · trivial
            · rename_i hr
              refine ⟨⟨r, by simpa using hr, rfl⟩, fun r => ?_⟩
              cases r <;> trivial
          · trivial
        · unfold pwstatLength
          split
          · exact ⟨True.intro, fun _ => trivial⟩
          · trivial
        · unfold pwstatTimes
          split
          · split
            · refine ⟨True.intro, fun r => ?_⟩
              cases r with
              | error e => trivial
              | ok st => exact ⟨True.intro, fun _ => trivial⟩
            · exact ⟨True.intro, fun _ => trivial⟩
          · trivial
        · unfold pwstatSync
          split
          · split
            · trivial
            · exact ⟨True.intro, fun _ => trivial⟩
          · trivial
      · obtain ⟨o, e⟩ := r
        cases e <;> trivial

theorem checked_readDir (user i) (f : File H) (h c) : CheckedAll prev (preadDir user i f h c o) := by
  unfold preadDir
  dsimp only
  split
  · trivial
  · refine ⟨True.intro, fun r => ?_⟩
    cases r with
    | eof => trivial
    | fail e => trivial
    | entry st => dsimp only; split <;> trivial

theorem checked_read (user i off c) : CheckedAll prev (pread user i off c o) := by
  unfold pread
  split
  · trivial
  · split
    · trivial
    · split
      · split
        · refine ⟨True.intro, fun r => ?_⟩
          cases r with
          | some e => trivial
          | none => exact checked_readDir _ _ _ _ _ _
        · exact checked_readDir _ _ _ _ _ _
      · split
        · trivial
        · refine ⟨True.intro, fun r => ?_⟩
          obtain ⟨d, e⟩ := r
          cases e <;> trivial

theorem checked_dispatch (user : GoString) (v : Bool) (b : Buffer) (t : MType) : CheckedAll prev (pdispatch user o v b t) := by
  refine safe_dispatch (W := fun _ => True) user v trivial prev ?_ ?_ ?_ ?_ ?_ ?_ ?_ ?_ ?_ ?_ ?_ ?_ <;> intro p _
  · unfold pversion; split <;> trivial
  · unfold pattach
    split
    · trivial
    · refine ⟨True.intro, fun r => ?_⟩
      cases r <;> trivial
  · trivial
  · unfold pwalk
    split
    · trivial
    · split
      · split <;> trivial
      · refine (checked_walkLoop _ _ _).bind fun _ r _ => ?_
        obtain ⟨q, r⟩ := r
        cases r <;> dsimp only <;> split <;> trivial
  · unfold popen
    split
    · trivial
    · refine ⟨True.intro, fun r => ?_⟩
      cases r <;> trivial
  · unfold pcreate
    split
    · trivial
    · split
      · trivial
      · dsimp only
        split
        · refine ⟨True.intro, fun _ => ⟨True.intro, fun r => ?_⟩⟩
          cases r <;> trivial
        · refine ⟨True.intro, fun r => ?_⟩
          cases r with
          | error e => trivial
          | ok h =>
            refine ⟨True.intro, fun r => ?_⟩
            cases r <;> trivial
  · unfold pclunk
    split
    · trivial
    · exact (checked_clunkFile _ _ _).bind fun _ _ _ => trivial
  · unfold pstat
    split
    · trivial
    · refine ⟨True.intro, fun r => ?_⟩
      cases r <;> trivial
  · exact checked_wstat _ _ _
  · unfold premove
    split
    · trivial
    · refine (checked_clunkFile _ _ _).bind fun _ _ _ => ⟨True.intro, fun r => ?_⟩
      cases r <;> trivial
  · exact checked_read _ _ _ _ _
  · unfold pwrite
    split
    · trivial
    · split
      · trivial
      · refine ⟨True.intro, fun r => ?_⟩
        obtain ⟨n, e⟩ := r
        cases e <;> trivial

end

end Ninep.Ufs
