import Verif.Props.Calls
/-
Which host calls a request makes (C83): only those that it stands for, on the file of its fid.
-/

namespace Ninep.Ufs
open Spec

section
variable {ω H : Type} (host : Host ω H) (user rootPath : GoString)

/-! ### what a request may ask of the host -/

/-- the record in a wstat -/
def Wants (m : TwstatPkt) (dir : Dir) : Prop := ∃ t b, unmarshaldir (Buffer.ofBytes m.B) = .done dir t none b
/-- a wstat that does not ask for another owner -/
def Owned (dir : Dir) : Prop := dir.User = [] ∧ dir.Group = []
/-- the name of the file after the renaming that a wstat asks for -/
def Moved (rootPath : GoString) (f : File H) (dir : Dir) (p : GoString) : Prop :=
  (dir.Name = [] ∧ p = f.fullName) ∨ (dir.Name ≠ [] ∧ p = renameTo rootPath f.fullName dir.Name)

/-- The host calls that a message may lead to, for a file server with the fids `files` exported at `rootPath`. -/
def MayCall (rootPath : GoString) (files : FID → Option (File H)) : TMsg → HCall H → Prop
  | .attach _, .stat p => Below (rootOf rootPath) p
  | .walk m, .lstat p => ∃ f, files m.SFID = some f ∧ ∃ k, 0 < k ∧ k ≤ m.Paths.length ∧ p = reach f.fullName m.Paths k
  | .open_ m, .openFile p flags perm => ∃ f, files m.OFID = some f ∧ p = f.fullName ∧ perm = 0 ∧
      flags &&& O_CREATE = 0 ∧ (m.Omode &&& OTRUNC = 0 → flags &&& O_TRUNC = 0) ∧
      (m.Omode &&& 3 = OREAD ∨ m.Omode &&& 3 = OEXEC → flags &&& 3 = O_RDONLY)
  | .create m, .mkdir p perm => ∃ f, files m.OFID = some f ∧ f.file = none ∧ p = pathJoin f.fullName m.Name ∧
      m.CreatePerm &&& DMDIR ≠ 0 ∧ perm = m.CreatePerm &&& 0o777
  | .create m, .openFile p _ perm => ∃ f, files m.OFID = some f ∧ f.file = none ∧ p = pathJoin f.fullName m.Name ∧
      m.CreatePerm &&& DMDIR = 0 ∧ perm = m.CreatePerm &&& 0o777
  | .create m, .lstat p => ∃ f, files m.OFID = some f ∧ f.file = none ∧ p = pathJoin f.fullName m.Name
  | .clunk m, .close h => ∃ f, files m.OFID = some f ∧ f.file = some h
  | .remove m, .close h => ∃ f, files m.OFID = some f ∧ f.file = some h
  | .remove m, .remove p => ∃ f, files m.OFID = some f ∧ p = f.fullName
  | .stat m, .lstat p => ∃ f, files m.OFID = some f ∧ p = f.fullName
  | .wstat m, .chmod p perm => ∃ f dir, files m.OFID = some f ∧ Wants m dir ∧ p = f.fullName ∧ dir.Mode ≠ 0xFFFFFFFF ∧ perm = dir.Mode &&& 0o777
  | .wstat m, .rename p q => ∃ f dir, files m.OFID = some f ∧ Wants m dir ∧ Owned dir ∧ dir.Name ≠ [] ∧ p = f.fullName ∧
      q = renameTo rootPath f.fullName dir.Name
  | .wstat m, .stat p => ∃ f dir, files m.OFID = some f ∧ Wants m dir ∧ Owned dir ∧ Moved rootPath f dir p
  | .wstat m, .truncate p size => ∃ f dir, files m.OFID = some f ∧ Wants m dir ∧ Owned dir ∧ Moved rootPath f dir p ∧
      dir.Length ≠ 0xFFFFFFFFFFFFFFFF ∧ size = dir.Length.toInt64
  | .wstat m, .chtimes p atime mtime => ∃ f dir, files m.OFID = some f ∧ Wants m dir ∧ Owned dir ∧ Moved rootPath f dir p ∧
      (dir.Mtime ≠ 0xFFFFFFFF ∨ dir.Atime ≠ 0xFFFFFFFF) ∧ atime = ⟨dir.Atime.toNat, 0⟩ ∧
      (dir.Mtime ≠ 0xFFFFFFFF → mtime = ⟨dir.Mtime.toNat, 0⟩)
  | .wstat m, .sync h => ∃ f dir, files m.OFID = some f ∧ Wants m dir ∧ f.file = some h ∧ dir.Mode = 0xFFFFFFFF ∧ dir.Name = [] ∧
      dir.Length = 0xFFFFFFFFFFFFFFFF ∧ dir.Mtime = 0xFFFFFFFF ∧ dir.Atime = 0xFFFFFFFF
  | .read m, .seek0 h => ∃ f, files m.OFID = some f ∧ f.file = some h ∧ m.Off = 0
  | .read m, .readdir1 h => ∃ f, files m.OFID = some f ∧ f.file = some h
  | .read m, .readAt h n off => ∃ f, files m.OFID = some f ∧ f.file = some h ∧ (n : Int) = m.Len.toInt ∧ off = m.Off.toInt64
  | .write m, .writeAt h b off => ∃ f, files m.OFID = some f ∧ f.file = some h ∧ b = m.Data ∧ off = m.Off.toInt64
  | _, _ => False

/-- the same for programs; the call before does not matter -/
abbrev Means (o : Obj H) (m : TMsg) : Option (Ev H) → HCall H → Prop := fun _ c => MayCall o.rootPath o.files m c

abbrev MeansAll {α : Type} (o : Obj H) (m : TMsg) (prev : Option (Ev H)) (p : Prog H α) : Prop := p.Safe (Means o m) (fun _ => True) prev

section
variable {o : Obj H} (prev : Option (Ev H))

theorem flags_create (m : Mode) : modeToUnixFlags m &&& O_CREATE = 0 := by
  unfold modeToUnixFlags; dsimp only
  repeat' split
  all_goals decide

theorem flags_trunc (m : Mode) (h : m &&& OTRUNC = 0) : modeToUnixFlags m &&& O_TRUNC = 0 := by
  unfold modeToUnixFlags; dsimp only
  rw [if_neg (by simpa using h)]
  repeat' split
  all_goals decide

theorem flags_read (m : Mode) (h : m &&& 3 = OREAD ∨ m &&& 3 = OEXEC) : modeToUnixFlags m &&& 3 = O_RDONLY := by
  unfold modeToUnixFlags; dsimp only
  rcases h with h | h <;> rw [h] <;> split <;> decide

theorem means_attach (p : TattachPkt) : MeansAll o (.attach p) prev (pattach p.SFID p.AFID p.Uname p.Aname o) := by
  unfold pattach
  split
  · trivial
  · refine ⟨?_, fun r => ?_⟩
    · exact below_attach o p.Aname
    · cases r <;> trivial

theorem means_walkLoop (m : TMsg) (names : List GoString) (p : GoString)
    (h : ∀ k, 0 < k → k ≤ names.length → MayCall o.rootPath o.files m (.lstat (reach p names k))) :
    MeansAll o m prev (pwalkLoop p names) := by
  induction names generalizing p prev with
  | nil => trivial
  | cons n ns ih =>
    refine ⟨h 1 (by omega) (by simp), fun r => ?_⟩
    cases r with
    | error e => trivial
    | ok st =>
      refine (ih _ _ fun k hk hl => ?_).bind fun _ _ _ => trivial
      exact h (k + 1) (by omega) (by simpa using hl)

theorem means_walk (p : TwalkPkt) : MeansAll o (.walk p) prev (pwalk p.SFID p.NewFID p.Paths o) := by
  unfold pwalk
  split
  · trivial
  · rename_i f hf
    split
    · split <;> trivial
    · refine (means_walkLoop (o := o) _ (.walk p) _ _ fun k h1 h2 => ⟨f, hf, k, h1, h2, rfl⟩).bind fun _ r _ => ?_
      obtain ⟨q, r⟩ := r
      cases r <;> dsimp only <;> split <;> trivial

theorem means_open (p : TopenPkt) : MeansAll o (.open_ p) prev (popen p.OFID p.Omode o) := by
  unfold popen
  split
  · trivial
  · rename_i f hf
    refine ⟨⟨f, hf, rfl, rfl, flags_create _, flags_trunc _, flags_read _⟩, fun r => ?_⟩
    cases r <;> trivial

theorem means_create (p : TcreatePkt) : MeansAll o (.create p) prev (pcreate p.OFID p.Name p.CreatePerm p.Omode o) := by
  unfold pcreate
  split
  · trivial
  · rename_i f hf
    split
    · trivial
    · rename_i hn
      have hn : f.file = none := by simpa using hn
      dsimp only
      split
      · rename_i hd
        refine ⟨⟨f, hf, hn, rfl, hd, rfl⟩, fun _ => ⟨⟨f, hf, hn, rfl⟩, fun r => ?_⟩⟩
        cases r <;> trivial
      · rename_i hd
        refine ⟨⟨f, hf, hn, rfl, by simpa using hd, rfl⟩, fun r => ?_⟩
        cases r with
        | error e => trivial
        | ok h =>
          refine ⟨⟨f, hf, hn, rfl⟩, fun r => ?_⟩
          cases r <;> trivial

theorem means_clunkFile {m : TMsg} (i) (f : File H) (h : ∀ h, f.file = some h → MayCall o.rootPath o.files m (.close h)) :
    MeansAll o m prev (pclunkFile i o f) := by
  unfold pclunkFile
  split
  · trivial
  · rename_i h' hf
    exact ⟨h _ hf, fun _ => trivial⟩

theorem means_clunk (p : TclunkPkt) : MeansAll o (.clunk p) prev (pclunk p.OFID o) := by
  unfold pclunk
  split
  · trivial
  · rename_i f hf
    exact (means_clunkFile (o := o) (m := .clunk p) _ _ _ fun h hh => ⟨f, hf, hh⟩).bind fun _ _ _ => trivial

theorem means_remove (p : TremovePkt) : MeansAll o (.remove p) prev (premove p.OFID o) := by
  unfold premove
  split
  · trivial
  · rename_i f hf
    refine (means_clunkFile (o := o) (m := .remove p) _ _ _ fun h hh => ⟨f, hf, hh⟩).bind fun _ _ _ => ⟨⟨f, hf, rfl⟩, fun r => ?_⟩
    cases r <;> trivial

theorem means_stat (p : TstatPkt) : MeansAll o (.stat p) prev (pstat user p.OFID o) := by
  unfold pstat
  split
  · trivial
  · rename_i f hf
    refine ⟨⟨f, hf, rfl⟩, fun r => ?_⟩
    cases r <;> trivial

theorem means_andThen {m : TMsg} {Q : Obj H → Prop} {p : Prog H (Obj H × Option GoString)} {k : Obj H → Prog H (Obj H × Option GoString)}
    (hp : p.Safe (Means o m) (fun r => r.2 = none → Q r.1) prev) (hk : ∀ prev a, Q a → MeansAll o m prev (k a)) :
    MeansAll o m prev (pAndThen p k) := by
  refine hp.bind fun prev' r hr => ?_
  obtain ⟨o, e⟩ := r
  cases e with
  | none => exact hk _ _ (hr rfl)
  | some e => trivial

theorem means_wstat (p : TwstatPkt) : MeansAll o (.wstat p) prev (pwstat p.OFID p.B o) := by
  unfold pwstat
  split
  · trivial
  · rename_i f hf
    split
    · trivial
    · trivial
    · rename_i dir t b hd
      dsimp only
      have hw : Wants p dir := ⟨_, _, hd⟩
      have hpath : Moved o.rootPath f dir (wstatPath f dir o) := by
        unfold wstatPath Moved
        split
        · rename_i hn; exact .inr ⟨hn, rfl⟩
        · rename_i hn; exact .inl ⟨by simpa using hn, rfl⟩
      generalize wstatPath f dir o = path at hpath
      refine Prog.Safe.bind (Q := fun _ => True) ?_ fun _ r _ => ?_
      · refine means_andThen (Q := fun a => a = o) _ ?_ fun prev a ha => means_andThen (Q := fun a => a = o ∧ Owned dir) _ ?_ fun prev a ha =>
          means_andThen (Q := fun _ => Owned dir) _ ?_ fun prev a ha => means_andThen (Q := fun _ => Owned dir) _ ?_ fun prev a ha =>
          means_andThen (Q := fun _ => True) _ ?_ fun prev a _ => ?_
        · unfold pwstatMode
          split
          · rename_i hm
            exact ⟨⟨f, dir, hf, hw, rfl, hm, rfl⟩, fun _ _ => rfl⟩
          · exact fun _ => rfl
        · unfold pwstatUser
          split
          · exact fun h => by cases h
          · rename_i hn
            refine fun _ => ⟨ha, ?_⟩
            simpa [not_or, Owned] using hn
        · obtain ⟨rfl, ho⟩ := ha
          unfold pwstatName
          split
          · rename_i hn
            refine ⟨⟨f, dir, hf, hw, ho, .inr ⟨hn, rfl⟩⟩, fun r => ?_⟩
            dsimp only
            split
            · exact fun _ => ho
            · refine ⟨⟨f, dir, hf, hw, ho, hn, rfl, rfl⟩, fun r => ?_⟩
              cases r <;> exact fun _ => ho
          · exact fun _ => ho
        · unfold pwstatLength
          split
          · rename_i hl
            exact ⟨⟨f, dir, hf, hw, ha, hpath, hl, rfl⟩, fun _ _ => ha⟩
          · exact fun _ => ha
        · unfold pwstatTimes
          split
          · rename_i ht
            split
            · refine ⟨⟨f, dir, hf, hw, ha, hpath⟩, fun r => ?_⟩
              cases r with
              | error e => exact fun _ => trivial
              | ok st => exact ⟨⟨f, dir, hf, hw, ha, hpath, ht, rfl, fun hm => by rw [if_neg hm]; rfl⟩, fun _ _ => trivial⟩
            · exact ⟨⟨f, dir, hf, hw, ha, hpath, ht, rfl, fun _ => rfl⟩, fun _ _ => trivial⟩
          · exact fun _ => trivial
        · unfold pwstatSync
          split
          · rename_i h hh
            split
            · trivial
            · rename_i hc
              have hc : wstatChanges dir = false := by simpa using hc
              simp [wstatChanges] at hc
              obtain ⟨c1, c2, c3, c4, c5⟩ := hc
              exact ⟨⟨f, dir, hf, hw, hh, c1, c2, c3, c4, c5⟩, fun _ => trivial⟩
          · trivial
      · obtain ⟨o, e⟩ := r
        cases e <;> trivial

theorem means_readDir (p : TreadPkt) (a : Obj H) (f f' : File H) (h : H) (hf : o.files p.OFID = some f) (hh : f.file = some h) :
    MeansAll o (.read p) prev (preadDir user p.OFID f' h p.Len a) := by
  unfold preadDir
  dsimp only
  split
  · trivial
  · refine ⟨⟨f, hf, hh⟩, fun r => ?_⟩
    cases r with
    | eof => trivial
    | fail e => trivial
    | entry st => dsimp only; split <;> trivial

theorem means_read (p : TreadPkt) : MeansAll o (.read p) prev (pread user p.OFID p.Off p.Len o) := by
  unfold pread
  split
  · trivial
  · rename_i f hf
    split
    · trivial
    · rename_i h hh
      split
      · split
        · rename_i ho
          refine ⟨⟨f, hf, hh, ho⟩, fun r => ?_⟩
          cases r with
          | some e => trivial
          | none => exact means_readDir user _ p _ f _ h hf hh
        · exact means_readDir user _ p _ f _ h hf hh
      · split
        · trivial
        · rename_i hn
          refine ⟨⟨f, hf, hh, by omega, rfl⟩, fun r => ?_⟩
          obtain ⟨d, e⟩ := r
          cases e <;> trivial

theorem means_write (p : TwritePkt) : MeansAll o (.write p) prev (pwrite p.OFID p.Off p.Data o) := by
  unfold pwrite
  split
  · trivial
  · rename_i f hf
    split
    · trivial
    · rename_i h hh
      refine ⟨⟨f, hf, hh, rfl, rfl⟩, fun r => ?_⟩
      obtain ⟨n, e⟩ := r
      cases e <;> trivial

/-- a packet leads to the calls of some message that it asks for -/
theorem means_dispatch (v : Bool) (b : Buffer) (t : MType) :
    (pdispatch user o v b t).Safe (fun _ c => ∃ m, PacketAsks t b m ∧ MayCall o.rootPath o.files m c) (fun _ => True) prev := by
  have up : ∀ {m : TMsg} {α : Type} {p : Prog H α}, PacketAsks t b m → MeansAll o m prev p →
      p.Safe (fun _ c => ∃ m, PacketAsks t b m ∧ MayCall o.rootPath o.files m c) (fun _ => True) prev :=
    fun ha hp => hp.mono (fun _ _ h => ⟨_, ha, h⟩) fun _ h => h
  refine safe_dispatch (W := fun _ => True) user v trivial prev (fun p _ => ?_) (fun p h => up h (means_attach _ _)) (fun _ _ => trivial)
    (fun p h => up h (means_walk _ _)) (fun p h => up h (means_open _ _)) (fun p h => up h (means_create _ _)) (fun p h => up h (means_clunk _ _))
    (fun p h => up h (means_stat user _ _)) (fun p h => up h (means_wstat _ _)) (fun p h => up h (means_remove _ _))
    (fun p h => up h (means_read user _ _)) (fun p h => up h (means_write _ _))
  unfold pversion; split <;> trivial

end

/-! ### runs -/

/-- connection `i` takes no packet -/
def NoStart (i : Nat) (ls : List (Label ω H)) : Prop := ∀ t body spare, Label.start i t body spare ∉ ls

theorem cause_inv {w0 : ω} {ls : List (Label ω H)} {p : TProc ω H} (hr : TRun host user rootPath w0 ls p) {i : Nat} {c : Thr H}
    (hc : p.thr[i]? = some c) {q : Prog H (Served H)} (hq : c.running = some q) :
    ∃ as t body spare bs p0 c0, ls = as ++ .start i t body spare :: bs ∧ NoStart i bs ∧ TRun host user rootPath w0 as p0 ∧
      p0.thr[i]? = some c0 ∧ Prog.Path (pdispatch user c0.obj c0.Versioned ⟨[], body, spare⟩ t) (callsOf i bs) q := by
  induction hr generalizing c q with
  | init => simp at hc
  | @step ls p l p' hr0 hs ih =>
    have keep : (∀ t body spare, l ≠ .start i t body spare) → callsOf i [l] = [] → p.thr[i]? = some c →
        ∃ as t body spare bs p0 c0, ls ++ [l] = as ++ .start i t body spare :: bs ∧ NoStart i bs ∧ TRun host user rootPath w0 as p0 ∧
          p0.thr[i]? = some c0 ∧ Prog.Path (pdispatch user c0.obj c0.Versioned ⟨[], body, spare⟩ t) (callsOf i bs) q := by
      intro h1 h2 h3
      obtain ⟨as, t, body, spare, bs, p0, c0, e1, e2, e3, e4, e5⟩ := ih h3 hq
      refine ⟨as, t, body, spare, bs ++ [l], p0, c0, by rw [e1]; simp, ?_, e3, e4, by rw [callsOf_append, h2, List.append_nil]; exact e5⟩
      intro t' body' spare' hm
      rcases List.mem_append.1 hm with hm | hm
      · exact e2 _ _ _ hm
      · exact h1 _ _ _ (List.mem_singleton.1 hm).symm
    cases hs with
    | accept =>
      rw [List.getElem?_append] at hc
      split at hc
      · exact keep (by simp) rfl hc
      · have hm := List.mem_of_getElem? hc
        rw [List.mem_singleton] at hm
        subst hm
        cases hq
    | @start j d t body spare hd hdead hrun =>
      by_cases hji : j = i
      · subst hji
        rw [List.getElem?_set_self (List.getElem?_eq_some_iff.1 hd).1] at hc
        cases hc
        cases hq
        exact ⟨ls, t, body, spare, [], p, d, rfl, by simp [NoStart], hr0, hd, .nil⟩
      · rw [List.getElem?_set_ne hji] at hc
        exact keep (fun _ _ _ h => hji (by cases h; rfl)) rfl hc
    | @call j d x k hd hrun =>
      by_cases hji : j = i
      · subst hji
        rw [List.getElem?_set_self (List.getElem?_eq_some_iff.1 hd).1] at hc
        cases hc
        cases hq
        obtain ⟨as, t, body, spare, bs, p0, c0, e1, e2, e3, e4, e5⟩ := ih hd hrun
        refine ⟨as, t, body, spare, bs ++ [.call j ⟨x, (host.exec x p.world).2⟩], p0, c0, by rw [e1]; simp, ?_, e3, e4, ?_⟩
        · intro t' body' spare' hm
          rcases List.mem_append.1 hm with hm | hm
          · exact e2 _ _ _ hm
          · simp at hm
        · rw [callsOf_append]
          simp only [callsOf, if_true]
          exact e5.snoc _
      · rw [List.getElem?_set_ne hji] at hc
        exact keep (by simp) (by simp [callsOf, hji]) hc
    | @reply j d o v b written hd hrun =>
      by_cases hji : j = i
      · subst hji
        rw [List.getElem?_set_self (List.getElem?_eq_some_iff.1 hd).1] at hc
        cases hc
        unfold Thr.replied at hq
        cases written <;> cases hq
      · rw [List.getElem?_set_ne hji] at hc
        exact keep (by simp) rfl hc
    | @hangup j d hd hrun =>
      by_cases hji : j = i
      · subst hji
        rw [List.getElem?_set_self (List.getElem?_eq_some_iff.1 hd).1] at hc
        cases hc
        rw [show ({ d with dead := true } : Thr H).running = d.running from rfl, hrun] at hq
        cases hq
      · rw [List.getElem?_set_ne hji] at hc
        exact keep (by simp) rfl hc
    | other w => exact keep (by simp) rfl hc

theorem run_split {w0 : ω} {ls1 ls2 : List (Label ω H)} {p : TProc ω H} (hr : TRun host user rootPath w0 (ls1 ++ ls2) p) :
    ∃ p1, TRun host user rootPath w0 ls1 p1 := by
  generalize hls : ls1 ++ ls2 = ls at hr
  induction hr generalizing ls2 with
  | init =>
    rw [List.append_eq_nil_iff] at hls
    rw [hls.1]
    exact ⟨_, .init⟩
  | @step ls p l p' hr0 hs ih =>
    rcases List.eq_nil_or_concat ls2 with rfl | ⟨ls3, e, rfl⟩
    · rw [List.append_nil] at hls
      rw [hls]
      exact ⟨_, hr0.step hs⟩
    · rw [List.concat_eq_append, ← List.append_assoc] at hls
      obtain ⟨h, -⟩ := List.append_inj' hls rfl
      exact ih h

/-- **C83** Every host call that is ever made is made for a packet that the connection has taken and not yet
answered, and is one of those that the message in this packet stands for: the paths and open files in it are
those of the fid in the message, as the fids were when the packet was taken.  This holds for any number of
connections, however their requests overlap, whatever the packets contain and whatever the host answers. -/
theorem C83_means {w0 : ω} {ls1 ls2 : List (Label ω H)} {p : TProc ω H} {i : Nat} {e : Ev H}
    (hr : TRun host user rootPath w0 (ls1 ++ .call i e :: ls2) p) :
    ∃ as t body spare bs p0 c m, ls1 = as ++ .start i t body spare :: bs ∧ NoStart i bs ∧
      TRun host user rootPath w0 as p0 ∧ p0.thr[i]? = some c ∧ PacketAsks t ⟨[], body, spare⟩ m ∧
      MayCall c.obj.rootPath c.obj.files m e.1 := by
  rw [show ls1 ++ Label.call i e :: ls2 = (ls1 ++ [.call i e]) ++ ls2 by simp] at hr
  obtain ⟨p1, hr1⟩ := run_split host user rootPath hr
  generalize hls : ls1 ++ [Label.call i e] = ls at hr1
  cases hr1 with
  | init => simp at hls
  | @step ls p l p' hr0 hs =>
    obtain ⟨h1, h2⟩ := List.append_inj' hls rfl
    subst h1
    have h2 : Label.call i e = l := by simpa using h2
    subst h2
    cases hs with
    | @call j d x k hd hrun =>
      obtain ⟨as, t, body, spare, bs, p0, c0, e1, e2, e3, e4, e5⟩ := cause_inv host user rootPath hr0 hd hrun
      obtain ⟨m, hm1, hm2⟩ := ((means_dispatch user none c0.Versioned ⟨[], body, spare⟩ t).path e5).1
      exact ⟨as, t, body, spare, bs, p0, c0, m, e1, e2, e3, e4, hm1, hm2⟩

/-- calls that change something on the host -/
def HCall.Modifies : HCall H → Prop
  | .openFile _ flags _ => flags &&& O_CREATE ≠ 0 ∨ flags &&& O_TRUNC ≠ 0
  | .mkdir _ _ => True
  | .chmod _ _ => True
  | .rename _ _ => True
  | .truncate _ _ => True
  | .chtimes _ _ _ => True
  | .remove _ => True
  | .writeAt _ _ _ => True
  | _ => False

/-- messages that only look: open without truncation is one of them, whatever the mode -/
def ReadOnly : TMsg → Prop
  | .version _ => True
  | .attach _ => True
  | .flush _ => True
  | .walk _ => True
  | .open_ m => m.Omode &&& OTRUNC = 0
  | .clunk _ => True
  | .stat _ => True
  | .read _ => True
  | _ => False

/-- **C83** Clients that only send messages that look change nothing: none of the host calls made for them
creates, truncates, removes, renames or writes a file or changes its mode or times. -/
theorem C83_read_only {w0 : ω} {ls : List (Label ω H)} {p : TProc ω H} (hr : TRun host user rootPath w0 ls p)
    (hro : ∀ i t body spare m, Label.start i t body spare ∈ ls → PacketAsks t ⟨[], body, spare⟩ m → ReadOnly m)
    {i : Nat} {e : Ev H} (he : Label.call i e ∈ ls) : ¬ e.1.Modifies := by
  obtain ⟨ls1, ls2, rfl⟩ := List.append_of_mem he
  obtain ⟨as, t, body, spare, bs, p0, c, m, h1, -, -, -, h5, h6⟩ := C83_means host user rootPath hr
  have h7 := hro i t body spare m (by rw [h1]; simp) h5
  intro hm
  obtain ⟨e, ans⟩ := e
  cases m <;> cases e <;> first | exact h7 | exact hm | exact h6 | skip
  obtain ⟨f, -, -, -, k1, k2, -⟩ := h6
  rcases hm with hm | hm
  · exact hm k1
  · exact hm (k2 h7)

end

/-! ### examples -/

open Mem

/-- connection 0 walks to the file "/x/f", opens it and reads from it, while connection 1 walks; nobody modifies -/
def looking : List (Choice Mem.World) :=
  both ++ [.start 0 (.walk { SFID := 0, NewFID := 1, Paths := [[102]] })] ++
  whole 1 (.walk { SFID := 0, NewFID := 1, Paths := [[100]] }) 1 ++ [.go 0, .go 0] ++
  whole 0 (.open_ { OFID := 1, Omode := 0 }) 1 ++ whole 0 (.read { OFID := 1, Off := 1, Len := 2 }) 1 ++ whole 0 (.clunk { OFID := 1 }) 1

theorem schedule_starts {ω H : Type} (host : Host ω H) (user rootPath : GoString) {chs : List (Choice ω)} {p p' : TProc ω H}
    {ls : List (Label ω H)} (h : schedule host user rootPath p chs = some (ls, p')) {i : Nat} {t : MType} {body spare : Bytes}
    (hl : Label.start i t body spare ∈ ls) : ∃ m, Choice.start i m ∈ chs ∧ t = m.ty ∧ body = m.body 7 := by
  induction chs generalizing p ls with
  | nil => cases h; cases hl
  | cons ch chs ih =>
    unfold schedule at h
    split at h
    · cases h
    · rename_i l p1 h1
      split at h
      · cases h
      · rename_i ls1 p2 h2
        cases h
        rcases List.mem_cons.1 hl with hl | hl
        · subst hl
          cases ch with
          | start j m =>
            unfold choose at h1
            dsimp only at h1
            split at h1
            · cases h1; exact ⟨m, .head _, rfl, rfl⟩
            · cases h1
          | go j =>
            unfold choose at h1
            dsimp only at h1
            split at h1 <;> cases h1
          | hangup j =>
            unfold choose at h1
            dsimp only at h1
            split at h1 <;> cases h1
          | accept => cases h1
          | other w => cases h1
        · obtain ⟨m, h3, h4⟩ := ih h2 hl
          exact ⟨m, .tail _ h3, h4⟩

/-- the hypotheses of `C83_read_only`, with requests that overlap -/
example : ∃ ls p, TRun Mem.host [103] [47, 120] world0 ls p ∧ (callsOf 0 ls).length = 5 ∧ (callsOf 1 ls).length = 2 ∧
    ∀ i t body spare m, Label.start i t body spare ∈ ls → PacketAsks t ⟨[], body, spare⟩ m → ReadOnly m := by
  have h : (sched looking).map (fun r => ((callsOf 0 r.1).length, (callsOf 1 r.1).length)) = some (5, 2) := by decide +kernel
  cases hs : sched looking with
  | none => rw [hs] at h; cases h
  | some r =>
    obtain ⟨ls, p⟩ := r
    rw [hs] at h
    simp only [Option.map_some, Option.some.injEq, Prod.mk.injEq] at h
    refine ⟨ls, p, schedule_run _ _ _ hs, h.1, h.2, fun i t body spare m hl ha => ?_⟩
    obtain ⟨m', h1, rfl, rfl⟩ := schedule_starts _ _ _ hs hl
    have h2 : m'.Fits ∧ ReadOnly m' := by
      have hv : version0.Fits := by simp [version0, TMsg.Fits, lit]; decide
      have hat : attach0.Fits := by simp [attach0, TMsg.Fits]
      simp [looking, both, whole, List.replicate] at h1
      rcases h1 with ⟨-, rfl⟩ | ⟨-, rfl⟩ | ⟨-, rfl⟩ | ⟨-, rfl⟩ | ⟨-, rfl⟩ | ⟨-, rfl⟩ | ⟨-, rfl⟩ | ⟨-, rfl⟩ | ⟨-, rfl⟩ <;>
        first
          | exact ⟨hv, trivial⟩
          | exact ⟨hat, trivial⟩
          | exact ⟨by simp [TMsg.Fits], by simp [ReadOnly, OTRUNC]⟩
    rw [asks_body h2.1 ha]
    exact h2.2

end Ninep.Ufs
