import Verif.Ufs.Prog
/-
The programs of Ufs/Prog.lean, run without interruption, do what the functions of Ufs/Model.lean do.
-/

namespace Ninep.Ufs

section
variable {ω H : Type} (host : Host ω H) (user : GoString)

theorem Prog.run_bind {α β : Type} (p : Prog H α) (f : α → Prog H β) (w : ω) :
    (p.bind f).run host w = (p.run host w).bind fun r => (f r.2).run host r.1 := by
  induction p generalizing w with
  | ret a => rfl
  | panic => rfl
  | call c k ih => exact ih _ _

/-- what a method run without interruption comes to -/
def toRes {α : Type} : Option (ω × Obj H × Except GoString α) → NRes (State ω H) α
  | none => .panic
  | some (w, o, .ok a) => .ok (o.into w) a
  | some (w, o, .error e) => .err (o.into w) e

/-- the same for the parts of wstat -/
def toSt {α : Type} (r : Option (ω × Obj H × α)) (d : State ω H × α) : State ω H × α :=
  match r with
  | none => d
  | some (w, o, a) => (o.into w, a)

theorem run_version (m : MaxSize) (v : GoString) (s : State ω H) :
    rversion m v s = toRes ((pversion m v s.obj).run host s.world) := by
  unfold rversion pversion
  split <;> rfl

theorem run_attach (fid afid : FID) (u a : GoString) (s : State ω H) :
    rattach host fid afid u a s = toRes ((pattach fid afid u a s.obj).run host s.world) := by
  unfold rattach pattach
  split
  · rfl
  · simp only [Prog.run, Host.exec]
    show (match host.stat (pathJoin s.rootPath (pathJoin [slash] a)) s.world with
      | (w, .error e) => NRes.err { s with world := w } e
      | (w, .ok st) => .ok ({ s with world := w }.set fid { fullName := pathJoin s.rootPath (pathJoin [slash] a), qid := fileInfoToQID st }) (fileInfoToQID st)) = _
    rw [show s.obj.rootPath = s.rootPath from rfl]
    generalize host.stat (pathJoin s.rootPath (pathJoin [slash] a)) s.world = r
    obtain ⟨w, r⟩ := r
    cases r <;> rfl

theorem run_flush (t : Tag) (s : State ω H) : rflush t s = toRes ((pflush t s.obj).run host s.world) := rfl

theorem run_walkLoop (p : GoString) (ns : List GoString) (w : ω) :
    (pwalkLoop (H := H) p ns).run host w = some (walkLoop host p w ns) := by
  induction ns generalizing p w with
  | nil => rfl
  | cons n ns ih =>
    unfold pwalkLoop walkLoop
    simp only [Prog.run, Host.exec]
    generalize host.lstat (pathJoin p n) w = r
    obtain ⟨w, r⟩ := r
    cases r with
    | error e => rfl
    | ok st =>
      dsimp only
      rw [Prog.run_bind, ih]
      rfl

theorem run_walk (fid newfid : FID) (ns : List GoString) (s : State ω H) :
    rwalk host fid newfid ns s = toRes ((pwalk fid newfid ns s.obj).run host s.world) := by
  unfold rwalk pwalk
  rw [show s.obj.files = s.files from rfl]
  cases s.files fid with
  | none => rfl
  | some f =>
    dsimp only
    by_cases hn : ns = []
    · rw [if_pos hn, if_pos hn]
      cases s.files newfid <;> rfl
    · rw [if_neg hn, if_neg hn, Prog.run_bind, run_walkLoop]
      generalize walkLoop host f.fullName s.world ns = r
      obtain ⟨w, q, p⟩ := r
      cases p with
      | none =>
        dsimp only [Option.bind]
        by_cases hq : q = []
        · rw [if_pos hq, if_pos hq]; rfl
        · rw [if_neg hq, if_neg hq]; rfl
      | some p =>
        dsimp only [Option.bind]
        split <;> rfl

theorem run_open (fid : FID) (m : Mode) (s : State ω H) :
    ropen host fid m s = toRes ((popen fid m s.obj).run host s.world) := by
  unfold ropen popen
  rw [show s.obj.files = s.files from rfl]
  cases s.files fid with
  | none => rfl
  | some f =>
    simp only [Prog.run, Host.exec]
    generalize host.openFile f.fullName (modeToUnixFlags m) 0 s.world = r
    obtain ⟨w, r⟩ := r
    cases r <;> rfl

theorem run_create (fid : FID) (n : GoString) (pm : Perm) (m : Mode) (s : State ω H) :
    rcreate host fid n pm m s = toRes ((pcreate fid n pm m s.obj).run host s.world) := by
  unfold rcreate pcreate
  rw [show s.obj.files = s.files from rfl]
  cases s.files fid with
  | none => rfl
  | some f =>
    dsimp only
    cases f.file.isSome with
    | true => rfl
    | false =>
      simp only [Bool.false_eq_true, if_false]
      by_cases hd : pm &&& DMDIR ≠ 0
      · rw [if_pos hd, if_pos hd]
        simp only [Prog.run, Host.exec]
        generalize host.mkdir (pathJoin f.fullName n) (pm &&& 0o777) s.world = r
        obtain ⟨w, r⟩ := r
        dsimp only
        generalize host.lstat (pathJoin f.fullName n) w = r
        obtain ⟨w, r⟩ := r
        cases r <;> rfl
      · rw [if_neg hd, if_neg hd]
        simp only [Prog.run, Host.exec]
        generalize host.openFile (pathJoin f.fullName n) (modeToUnixFlags m ||| O_CREATE ||| O_TRUNC) (pm &&& 0o777) s.world = r
        obtain ⟨w, r⟩ := r
        cases r with
        | error e => rfl
        | ok h =>
          simp only [Prog.run, Host.exec]
          generalize host.lstat (pathJoin f.fullName n) w = r
          obtain ⟨w, r⟩ := r
          cases r <;> rfl

theorem run_clunkFile {fid : FID} {f : File H} {s : State ω H} (hf : s.files fid = some f) :
    ∃ w o, (pclunkFile fid s.obj f).run host s.world = some (w, o) ∧ clunk host fid s = some (o.into w, f) := by
  unfold clunk pclunkFile
  rw [hf]
  dsimp only
  cases f.file with
  | none => exact ⟨_, _, rfl, rfl⟩
  | some h => exact ⟨_, _, rfl, rfl⟩

theorem run_clunk (fid : FID) (s : State ω H) :
    rclunk host fid s = toRes ((pclunk fid s.obj).run host s.world) := by
  unfold rclunk pclunk
  rw [show s.obj.files = s.files from rfl]
  cases hf : s.files fid with
  | none =>
    have : clunk host fid s = none := by unfold clunk; rw [hf]
    rw [this]; rfl
  | some f =>
    dsimp only
    obtain ⟨w, o, h1, h2⟩ := run_clunkFile host hf
    rw [h2, Prog.run_bind, h1]
    rfl

theorem run_remove (fid : FID) (s : State ω H) :
    rremove host fid s = toRes ((premove fid s.obj).run host s.world) := by
  unfold rremove premove
  rw [show s.obj.files = s.files from rfl]
  cases hf : s.files fid with
  | none =>
    have : clunk host fid s = none := by unfold clunk; rw [hf]
    rw [this]; rfl
  | some f =>
    dsimp only
    obtain ⟨w, o, h1, h2⟩ := run_clunkFile host hf
    rw [h2, Prog.run_bind, h1]
    dsimp only [Option.bind]
    simp only [Prog.run, Host.exec]
    rw [show (o.into w).world = w from rfl]
    generalize host.remove f.fullName w = r
    obtain ⟨w, r⟩ := r
    cases r <;> rfl

theorem run_stat (fid : FID) (s : State ω H) :
    rstat host user fid s = toRes ((pstat user fid s.obj).run host s.world) := by
  unfold rstat pstat
  rw [show s.obj.files = s.files from rfl]
  cases s.files fid with
  | none => rfl
  | some f =>
    simp only [Prog.run, Host.exec]
    generalize host.lstat f.fullName s.world = r
    obtain ⟨w, r⟩ := r
    cases r <;> rfl

theorem run_readDir (fid : FID) (f : File H) (h : H) (c : Count) (s : State ω H) :
    readDir host user fid f h c s = toRes ((preadDir user fid f h c s.obj).run host s.world) := by
  unfold readDir preadDir
  dsimp only
  by_cases hl : (f.oflow.length : Int) > c.toInt
  · rw [if_pos hl, if_pos hl]; rfl
  · rw [if_neg hl, if_neg hl]
    simp only [Prog.run, Host.exec]
    rw [show (s.set fid { f with oflow := [] }).world = s.world from rfl]
    generalize host.readdir1 h s.world = r
    obtain ⟨w, r⟩ := r
    cases r with
    | eof => rfl
    | fail e => rfl
    | entry st =>
      dsimp only
      split <;> rfl

theorem run_read (fid : FID) (o : Offset) (c : Count) (s : State ω H) :
    rread host user fid o c s = toRes ((pread user fid o c s.obj).run host s.world) := by
  unfold rread pread
  rw [show s.obj.files = s.files from rfl]
  cases s.files fid with
  | none => rfl
  | some f =>
    dsimp only
    cases f.file with
    | none => rfl
    | some h =>
      dsimp only
      by_cases hd : f.qid.Typ &&& QTDIR ≠ 0
      · rw [if_pos hd, if_pos hd]
        by_cases ho : o = 0
        · rw [if_pos ho, if_pos ho]
          simp only [Prog.run, Host.exec]
          generalize hx : s.set fid { qid := f.qid, fullName := f.fullName, file := some h } = x
          have hw : x.world = s.world := by rw [← hx]; rfl
          have hxo : s.obj.set fid { qid := f.qid, fullName := f.fullName, file := some h } = x.obj := by rw [← hx]; rfl
          rw [hw, hxo]
          generalize host.seek0 h s.world = r
          obtain ⟨w, r⟩ := r
          cases r with
          | none => exact run_readDir host user fid _ h c { x with world := w }
          | some e => rfl
        · rw [if_neg ho, if_neg ho]
          exact run_readDir host user fid f h c s
      · rw [if_neg hd, if_neg hd]
        by_cases hc : c.toInt < 0
        · rw [if_pos hc, if_pos hc]; rfl
        · rw [if_neg hc, if_neg hc]
          simp only [Prog.run, Host.exec]
          generalize host.readAt h c.toInt.toNat o.toInt64 s.world = r
          obtain ⟨w, d, r⟩ := r
          cases r <;> rfl

theorem run_write (fid : FID) (o : Offset) (b : Bytes) (s : State ω H) :
    rwrite host fid o b s = toRes ((pwrite fid o b s.obj).run host s.world) := by
  unfold rwrite pwrite
  rw [show s.obj.files = s.files from rfl]
  cases s.files fid with
  | none => rfl
  | some f =>
    dsimp only
    cases f.file with
    | none => rfl
    | some h =>
      simp only [Prog.run, Host.exec]
      generalize host.writeAt h b o.toInt64 s.world = r
      obtain ⟨w, d, r⟩ := r
      cases r <;> rfl

/-! wstat -/

/-- a part of wstat: what the program does is what the function does -/
def SameRun (p : Prog H (Obj H × Option GoString)) (w : ω) (r : State ω H × Option GoString) : Prop :=
  p.run host w = some (r.1.world, r.1.obj, r.2)

theorem same_andThen {p : Prog H (Obj H × Option GoString)} {w : ω} {r : State ω H × Option GoString}
    {k : Obj H → Prog H (Obj H × Option GoString)} {k' : State ω H → State ω H × Option GoString}
    (h : SameRun host p w r) (hk : ∀ s, SameRun host (k s.obj) s.world (k' s)) : SameRun host (pAndThen p k) w (andThen r k') := by
  unfold SameRun pAndThen at *
  rw [Prog.run_bind, h]
  obtain ⟨s, e⟩ := r
  cases e with
  | none => exact hk s
  | some e => rfl

theorem same_mode (f : File H) (d : Dir) (s : State ω H) : SameRun host (pwstatMode f d s.obj) s.world (wstatMode host f d s) := by
  unfold SameRun pwstatMode wstatMode
  split <;> rfl

theorem same_user (d : Dir) (s : State ω H) : SameRun host (pwstatUser d s.obj) s.world (wstatUser d s) := by
  unfold SameRun pwstatUser wstatUser
  split <;> rfl

theorem same_name (fid : FID) (f : File H) (d : Dir) (s : State ω H) :
    SameRun host (pwstatName fid f d s.obj) s.world (wstatName host fid f d s) := by
  unfold SameRun pwstatName wstatName
  by_cases hn : d.Name ≠ []
  · rw [if_pos hn, if_pos hn]
    simp only [Prog.run, Host.exec]
    rw [show s.obj.rootPath = s.rootPath from rfl]
    generalize renameTo s.rootPath f.fullName d.Name = q
    have hd : isDirNow host q s.world = ((host.stat q s.world).1, isDirAns (host.stat q s.world).2) := by
      unfold isDirNow isDirAns
      cases h : host.stat q s.world with
      | mk w r => cases r <;> rfl
    rw [hd]
    have key : ∀ (b : Bool) (w : ω),
        Prog.run host (if b = true then .ret (s.obj, some (lit "is a directory")) else
          .call (.rename f.fullName q) fun r => match r with
            | some e => .ret (s.obj, some e)
            | none => .ret (s.obj.set fid { f with fullName := q }, none)) w =
        let r := (if b = true then ({ s with world := w }, some (lit "is a directory")) else
          andThen (onWorld (host.rename f.fullName q) { s with world := w }) fun s => (s.set fid { f with fullName := q }, none))
        some (r.1.world, r.1.obj, r.2) := by
      intro b w
      cases b with
      | true => rfl
      | false =>
        simp only [Bool.false_eq_true, if_false, Prog.run, Host.exec, onWorld]
        generalize host.rename f.fullName q w = r
        obtain ⟨w, r⟩ := r
        cases r <;> rfl
    exact key _ _
  · rw [if_neg hn, if_neg hn]; rfl

theorem same_length (p : GoString) (d : Dir) (s : State ω H) : SameRun host (pwstatLength p d s.obj) s.world (wstatLength host p d s) := by
  unfold SameRun pwstatLength wstatLength
  split <;> rfl

theorem same_times (p : GoString) (d : Dir) (s : State ω H) : SameRun host (pwstatTimes p d s.obj) s.world (wstatTimes host p d s) := by
  unfold SameRun pwstatTimes wstatTimes
  by_cases h1 : d.Mtime ≠ 0xFFFFFFFF ∨ d.Atime ≠ 0xFFFFFFFF
  · rw [if_pos h1, if_pos h1]
    by_cases h2 : d.Mtime = 0xFFFFFFFF ∨ d.Atime = 0xFFFFFFFF
    · rw [if_pos h2]
      dsimp only
      rw [if_pos h2]
      simp only [Prog.run, Host.exec]
      generalize host.stat p s.world = r
      obtain ⟨w, r⟩ := r
      cases r <;> rfl
    · rw [if_neg h2]
      dsimp only
      rw [if_neg h2]
      rfl
  · rw [if_neg h1, if_neg h1]; rfl

theorem same_sync (f : File H) (d : Dir) (s : State ω H) : SameRun host (pwstatSync f d s.obj) s.world (wstatSync host f d s) := by
  unfold SameRun pwstatSync wstatSync
  cases f.file with
  | none => rfl
  | some h =>
    dsimp only
    split <;> rfl

theorem run_wstat (fid : FID) (b : Bytes) (s : State ω H) :
    rwstat host fid b s = toRes ((pwstat fid b s.obj).run host s.world) := by
  unfold rwstat pwstat
  rw [show s.obj.files = s.files from rfl]
  cases s.files fid with
  | none => rfl
  | some f =>
    dsimp only
    cases unmarshaldir (Buffer.ofBytes b) with
    | panic => rfl
    | done d t e b1 =>
      cases e with
      | some e => rfl
      | none =>
        dsimp only
        rw [show wstatPath f d s.obj = wstatPath f d s from rfl]
        have h : SameRun host (pAndThen (pwstatMode f d s.obj) fun o =>
            pAndThen (pwstatUser d o) fun o =>
            pAndThen (pwstatName fid f d o) fun o =>
            pAndThen (pwstatLength (wstatPath f d s) d o) fun o =>
            pAndThen (pwstatTimes (wstatPath f d s) d o) fun o => pwstatSync f d o) s.world
            (andThen (wstatMode host f d s) fun s' =>
            andThen (wstatUser d s') fun s' =>
            andThen (wstatName host fid f d s') fun s' =>
            andThen (wstatLength host (wstatPath f d s) d s') fun s' =>
            andThen (wstatTimes host (wstatPath f d s) d s') fun s' => wstatSync host f d s') := by
          refine same_andThen host (same_mode host f d s) fun s1 => ?_
          refine same_andThen host (same_user host d s1) fun s2 => ?_
          refine same_andThen host (same_name host fid f d s2) fun s3 => ?_
          refine same_andThen host (same_length host (wstatPath f d s) d s3) fun s4 => ?_
          exact same_andThen host (same_times host (wstatPath f d s) d s4) fun s5 => same_sync host f d s5
        unfold SameRun at h
        have hb := Prog.run_bind host (pAndThen (pwstatMode f d s.obj) fun o =>
          pAndThen (pwstatUser d o) fun o =>
          pAndThen (pwstatName fid f d o) fun o =>
          pAndThen (pwstatLength (wstatPath f d s) d o) fun o =>
          pAndThen (pwstatTimes (wstatPath f d s) d o) fun o => pwstatSync f d o)
          (fun r => match r with
            | (o, none) => retOk o ()
            | (o, some e) => retErr o e) s.world
        refine Eq.trans ?_ (congrArg toRes hb.symm)
        rw [h]
        dsimp only [Option.bind]
        generalize (andThen (wstatMode host f d s) fun s' =>
          andThen (wstatUser d s') fun s' =>
          andThen (wstatName host fid f d s') fun s' =>
          andThen (wstatLength host (wstatPath f d s) d s') fun s' =>
          andThen (wstatTimes host (wstatPath f d s) d s') fun s' => wstatSync host f d s') = r
        obtain ⟨s', e⟩ := r
        cases e <;> rfl

/-! `Dispatch` -/

/-- what `Dispatch` run without interruption comes to -/
def toDisp : Option (ω × Served H) → DispRes (State ω H)
  | none => .panic
  | some (w, o, v, b) => .done ⟨o.into w, v⟩ b

theorem run_srv {P Q : Type} (dec : Buffer → Unm P) {call : P → State ω H → NRes (State ω H) Q} {met : P → Obj H → Met H Q}
    (enc : Buffer → Tag → Q → Buffer) (h : ∀ p s, call p s = toRes ((met p s.obj).run host s.world))
    (s : State ω H) (v : Bool) (b : Buffer) :
    srvCall dec call enc ⟨s, v⟩ b = toDisp ((psrv dec met enc s.obj v b).run host s.world) := by
  unfold srvCall psrv
  cases dec b with
  | panic => rfl
  | done p t e b =>
    dsimp only
    rw [h, Prog.run_bind]
    cases (met p s.obj).run host s.world with
    | none => rfl
    | some r =>
      obtain ⟨w, o, r⟩ := r
      cases r <;> rfl

theorem run_dispatchTable (s : State ω H) (v : Bool) (b : Buffer) (t : MType) :
    dispatchTable (ufs host user) ⟨s, v⟩ b t = toDisp ((pdispatchTable user s.obj v b t).run host s.world) := by
  unfold dispatchTable pdispatchTable
  by_cases h : t = MT.Tversion
  · rw [if_pos h, if_pos h]; exact run_srv host _ _ (by intro p s; exact run_version host _ _ s) s v b
  rw [if_neg h, if_neg h]; clear h
  by_cases h : t = MT.Tattach
  · rw [if_pos h, if_pos h]; exact run_srv host _ _ (by intro p s; exact run_attach host _ _ _ _ s) s v b
  rw [if_neg h, if_neg h]; clear h
  by_cases h : t = MT.Tflush
  · rw [if_pos h, if_pos h]; exact run_srv host _ _ (by intro p s; exact run_flush host _ s) s v b
  rw [if_neg h, if_neg h]; clear h
  by_cases h : t = MT.Twalk
  · rw [if_pos h, if_pos h]; exact run_srv host _ _ (by intro p s; exact run_walk host _ _ _ s) s v b
  rw [if_neg h, if_neg h]; clear h
  by_cases h : t = MT.Topen
  · rw [if_pos h, if_pos h]; exact run_srv host _ _ (by intro p s; exact run_open host _ _ s) s v b
  rw [if_neg h, if_neg h]; clear h
  by_cases h : t = MT.Tcreate
  · rw [if_pos h, if_pos h]; exact run_srv host _ _ (by intro p s; exact run_create host _ _ _ _ s) s v b
  rw [if_neg h, if_neg h]; clear h
  by_cases h : t = MT.Tclunk
  · rw [if_pos h, if_pos h]; exact run_srv host _ _ (by intro p s; exact run_clunk host _ s) s v b
  rw [if_neg h, if_neg h]; clear h
  by_cases h : t = MT.Tstat
  · rw [if_pos h, if_pos h]; exact run_srv host _ _ (by intro p s; exact run_stat host user _ s) s v b
  rw [if_neg h, if_neg h]; clear h
  by_cases h : t = MT.Twstat
  · rw [if_pos h, if_pos h]; exact run_srv host _ _ (by intro p s; exact run_wstat host _ _ s) s v b
  rw [if_neg h, if_neg h]; clear h
  by_cases h : t = MT.Tremove
  · rw [if_pos h, if_pos h]; exact run_srv host _ _ (by intro p s; exact run_remove host _ s) s v b
  rw [if_neg h, if_neg h]; clear h
  by_cases h : t = MT.Tread
  · rw [if_pos h, if_pos h]; exact run_srv host _ _ (by intro p s; exact run_read host user _ _ _ s) s v b
  rw [if_neg h, if_neg h]; clear h
  by_cases h : t = MT.Twrite
  · rw [if_pos h, if_pos h]; exact run_srv host _ _ (by intro p s; exact run_write host _ _ _ s) s v b
  rw [if_neg h, if_neg h]; clear h
  rfl

/-- `Dispatch` as a program does what `dispatch` does. -/
theorem run_dispatch (s : State ω H) (v : Bool) (b : Buffer) (t : MType) :
    dispatch (ufs host user) ⟨s, v⟩ b t = toDisp ((pdispatch user s.obj v b t).run host s.world) := by
  unfold dispatch pdispatch
  split
  · exact run_dispatchTable host user s true b t
  · dsimp only
    split
    · cases b.bytes with
      | nil => rfl
      | cons d0 r => cases r <;> rfl
    · exact run_dispatchTable host user s v b t

end
end Ninep.Ufs
